/-
C68: the numbers of the tree stay in the range of their columns.
-/
import Verif.NS.Range
import Verif.NS.Example
import Verif.AL.Range
import Verif.AL.Example
import Verif.Props.NSTree
import Verif.Props.ALTree

/-! ### NS -/

namespace Verif.NS

variable {cfg : Cfg} {db : DB} {M : Int}

/-- **C68 for NS, `add_root`**: with room for it, no statement leaves the range, and the call does what it does without a range. -/
theorem C68_ns_add_root (h : Consistent db) (hM : Room M db) {new : Row} (hf : Fresh db new) :
    addRootK M cfg db new = addRoot cfg db new := addRootK_eq h hM hf

/-- **C68 for NS, `add_child`.** -/
theorem C68_ns_add_child (h : Consistent db) (hM : Room M db) (target : Row) {new : Row} (hf : Fresh db new) :
    addChildK M cfg db target new = addChild cfg db target new := addChildK_eq h hM hf

/-- **C68 for NS, `add_sibling`.** -/
theorem C68_ns_add_sibling (h : Consistent db) (hM : Room M db) {t : Row} (ht : t ∈ db.rows) {cached : Option Row} (hc : CacheOk db t cached)
    (pos : Option Pos) {new : Row} (hf : Fresh db new) :
    addSiblingK M cfg db t cached pos new = addSibling cfg db t cached pos new := addSiblingK_eq h hM ht (cacheOk_par h ht hc) hf

/-- **C68 for NS, `move`**: not even between its three statements. -/
theorem C68_ns_move (h : Consistent db) (hM : Room M db) {x t : Row} (hx : x ∈ db.rows) (ht : t ∈ db.rows) {cached : Option Row}
    (hc : CacheOk db t cached) (pos : Option Pos) :
    moveK M cfg db x t cached pos = move cfg db x t cached pos := moveK_eq h hM hx ht (cacheOk_par h ht hc)

/-- **C68 for NS, `delete`**: not even between the closings of the gaps. -/
theorem C68_ns_delete (h : Consistent db) (hM : Room M db) (sel : Row → Bool) : deleteK M db sel = .ok (delete db sel) := deleteK_eq h hM sel

example : Consistent exDB ∧ Room 22 exDB := ⟨exDB_inv, by decide⟩

/-- **C68 for NS, histories**: no call leaves the range as long as the largest integer is above four times the rows and calls together, and above
every tree number plus the calls. -/
theorem C68_ns_history (h : Consistent db) (ops : List Op) (hM : RoomFor M ops.length db) : runOpsK M cfg db ops = runOps cfg db ops :=
  runOpsK_eq ops h hM

/-- ... in particular from an empty table. -/
theorem C68_ns_history_empty (ops : List Op) (hM : 4 * (ops.length : Int) + 2 ≤ M) :
    runOpsK M cfg { rows := [] } ops = runOps cfg { rows := [] } ops :=
  runOpsK_eq ops empty_consistent ⟨by simpa using hM, by simp⟩

example : (4 * ((500000000 : Nat) : Int) + 2 ≤ 2147483647) ∧ RoomFor 30 2 exDB := by decide

/-- a root with two children -/
def exThree : DB := { rows := [⟨1, 1, 1, 6, 1, []⟩, ⟨2, 1, 2, 3, 2, []⟩, ⟨3, 1, 4, 5, 2, []⟩] }

/-- **The room between the statements is needed**: the table before the move and the table after it fit into the numbers up to 6, but the move is
refused: the hole is made before the gap is closed. -/
theorem C68_ns_transient : Consistent exThree ∧ (∀ r ∈ exThree.rows, r.fits 6 = true) ∧
    (∃ res, move ⟨[]⟩ exThree ⟨3, 1, 4, 5, 2, []⟩ ⟨2, 1, 2, 3, 2, []⟩ none (some .left) = .ok res ∧ Consistent res.db ∧ ∀ r ∈ res.db.rows, r.fits 6 = true) ∧
    moveK 6 ⟨[]⟩ exThree ⟨3, 1, 4, 5, 2, []⟩ ⟨2, 1, 2, 3, 2, []⟩ none (some .left) = .error .integrity := by
  have hc : Consistent exThree := (by decide : NI exThree.rows) |> fun h => ⟨h, fun r hr => full_of_range 7 (by revert r; decide) (by revert r; decide)⟩
  refine ⟨hc, by decide, ?_, rfl⟩
  have h2 : (move ⟨[]⟩ exThree ⟨3, 1, 4, 5, 2, []⟩ ⟨2, 1, 2, 3, 2, []⟩ none (some .left)).toOption.map (fun y => y.db.rows.all (Row.fits 6)) = some true := by decide
  cases e : move ⟨[]⟩ exThree ⟨3, 1, 4, 5, 2, []⟩ ⟨2, 1, 2, 3, 2, []⟩ none (some .left) with
  | error er => rw [e] at h2; cases h2
  | ok res =>
    rw [e] at h2
    exact ⟨res, rfl, move_inv hc (by decide) (by decide) (by intro p e; cases e) e, List.all_eq_true.1 (Option.some.inj h2)⟩

/-! Two roots that are moved past each other use up the tree numbers. -/

/-- two roots with the tree numbers `a` and `b` -/
def pair (a b : Int) (sigs : List Sig) : DB := { rows := [⟨1, a, 1, 2, 1, []⟩, ⟨2, b, 1, 2, 1, []⟩], sigs := sigs }

theorem pair_roots_lt {a b : Int} (h : a < b) (sigs : List Sig) : rootNodes (pair a b sigs) = [⟨1, a, 1, 2, 1, []⟩, ⟨2, b, 1, 2, 1, []⟩] := by
  have h1 : ¬ b < a := by omega
  simp [rootNodes, pair, order, sortBy, tlLt, List.filter, List.insertionSort, List.orderedInsert, h1]

theorem pair_roots_gt {a b : Int} (h : b < a) (sigs : List Sig) : rootNodes (pair a b sigs) = [⟨2, b, 1, 2, 1, []⟩, ⟨1, a, 1, 2, 1, []⟩] := by
  simp [rootNodes, pair, order, sortBy, tlLt, List.filter, List.insertionSort, List.orderedInsert, h]

theorem pair_move_lt {a b : Int} (h : a < b) (sigs : List Sig) :
    ∃ sigs', step ⟨[]⟩ (pair a b sigs) (.move 1 2 (some .lastSibling)) = pair (b + 1) b sigs' := by
  have h2 : ¬ b = a := by omega
  have h3 : ¬ b + 1 = a := by omega
  have hr := pair_roots_lt h sigs
  unfold pair at hr
  have hp : preparePosForMove false (some .lastSibling) = .ok .lastSibling := rfl
  have e : exec ⟨[]⟩ (pair a b sigs) (.move 1 2 (some .lastSibling)) =
      .ok (closeGap (moveRows (pair a b sigs) ⟨1, a, 1, 2, 1, []⟩ (b + 1) 0 0) 1 2 a) := by
    simp [exec, DB.get?, pair, move, Cfg.ordered, hp, moveVars, isChildPos, moveFrom, Row.isDescendantOf,
      moveNoop, resolveSorted, resolvePos, moveTo, makeHole, Row.isRoot, siblings, hr, h2, moveRows, closeGap, alterGap, jumpRow, gapRow, h3, Except.map]
  unfold step
  rw [e]
  refine ⟨(closeGap (moveRows (pair a b sigs) ⟨1, a, 1, 2, 1, []⟩ (b + 1) 0 0) 1 2 a).sigs, ?_⟩
  simp [pair, moveRows, closeGap, alterGap, jumpRow, gapRow, h2, h3]

theorem pair_move_gt {a b : Int} (h : b < a) (sigs : List Sig) :
    ∃ sigs', step ⟨[]⟩ (pair a b sigs) (.move 2 1 (some .lastSibling)) = pair a (a + 1) sigs' := by
  have h1 : ¬ a = b := by omega
  have h3 : ¬ a + 1 = b := by omega
  have hr := pair_roots_gt h sigs
  unfold pair at hr
  have hp : preparePosForMove false (some .lastSibling) = .ok .lastSibling := rfl
  have e : exec ⟨[]⟩ (pair a b sigs) (.move 2 1 (some .lastSibling)) =
      .ok (closeGap (moveRows (pair a b sigs) ⟨2, b, 1, 2, 1, []⟩ (a + 1) 0 0) 1 2 b) := by
    simp [exec, DB.get?, pair, move, Cfg.ordered, hp, moveVars, isChildPos, moveFrom, Row.isDescendantOf,
      moveNoop, resolveSorted, resolvePos, moveTo, makeHole, Row.isRoot, siblings, hr, h1, moveRows, closeGap, alterGap, jumpRow, gapRow, h3, Except.map]
  unfold step
  rw [e]
  refine ⟨(closeGap (moveRows (pair a b sigs) ⟨2, b, 1, 2, 1, []⟩ (a + 1) 0 0) 1 2 b).sigs, ?_⟩
  simp [pair, moveRows, closeGap, alterGap, jumpRow, gapRow, h1, h3]

/-- `n` moves: each takes the first of the two roots behind the other -/
def swaps (n : Nat) : List Op := (List.range n).map (fun k => if k % 2 = 0 then .move 1 2 (some .lastSibling) else .move 2 1 (some .lastSibling))

/-- the history: two roots, and `n` moves -/
def swapOps (n : Nat) : List Op := .addRoot 1 [] :: .addRoot 2 [] :: swaps n

theorem swaps_state (n : Nat) : ∃ sigs, runOps ⟨[]⟩ { rows := [] } (swapOps n) =
    if n % 2 = 0 then pair (n + 1) (n + 2) sigs else pair (n + 2) (n + 1) sigs := by
  induction n with
  | zero => exact ⟨[], by decide⟩
  | succ n ih =>
    obtain ⟨sigs, e⟩ := ih
    have hrun : runOps ⟨[]⟩ { rows := [] } (swapOps (n + 1)) = step ⟨[]⟩ (runOps ⟨[]⟩ { rows := [] } (swapOps n))
        (if n % 2 = 0 then .move 1 2 (some .lastSibling) else .move 2 1 (some .lastSibling)) := by
      unfold swapOps swaps runOps
      rw [List.range_succ, List.map_append, ← List.cons_append, ← List.cons_append, List.foldl_append]
      rfl
    rw [hrun, e]
    by_cases hn : n % 2 = 0
    · rw [if_pos hn, if_pos hn]
      obtain ⟨s', e'⟩ := pair_move_lt (a := n + 1) (b := n + 2) (by omega) sigs
      refine ⟨s', e'.trans ?_⟩
      rw [if_neg (by omega)]
      unfold pair
      push_cast
      rw [show (n : Int) + 2 + 1 = n + 1 + 2 by omega, show (n : Int) + 2 = n + 1 + 1 by omega]
    · rw [if_neg hn, if_neg hn]
      obtain ⟨s', e'⟩ := pair_move_gt (a := n + 2) (b := n + 1) (by omega) sigs
      refine ⟨s', e'.trans ?_⟩
      rw [if_pos (by omega)]
      unfold pair
      push_cast
      rw [show (n : Int) + 2 + 1 = n + 1 + 2 by omega, show (n : Int) + 2 = n + 1 + 1 by omega]

theorem swaps_room (n : Nat) (hM : 10 ≤ M) (hn : (n : Int) + 3 ≤ M) : Room M (runOps ⟨[]⟩ { rows := [] } (swapOps n)) := by
  obtain ⟨sigs, e⟩ := swaps_state n
  rw [e]
  have : ∀ a b : Int, a + 1 ≤ M → b + 1 ≤ M → Room M (pair a b sigs) := by
    intro a b h1 h2
    refine ⟨by simp only [pair, List.length_cons, List.length_nil]; omega, fun r hr => ?_⟩
    simp only [pair, List.mem_cons, List.not_mem_nil, or_false] at hr
    rcases hr with rfl | rfl
    · exact h1
    · exact h2
  split
  · exact this _ _ (by omega) (by omega)
  · exact this _ _ (by omega) (by omega)

theorem swaps_K (hM : 10 ≤ M) (n : Nat) : (n : Int) + 2 ≤ M →
    runOpsK M ⟨[]⟩ { rows := [] } (swapOps n) = runOps ⟨[]⟩ { rows := [] } (swapOps n) := by
  induction n with
  | zero => intro _; exact runOpsK_eq (swapOps 0) empty_consistent ⟨by simp only [swapOps, swaps, List.length_cons, List.range_zero, List.map_nil, List.length_nil]; omega, by simp⟩
  | succ n ih =>
    intro hn
    have hsplit : swapOps (n + 1) = swapOps n ++ [if n % 2 = 0 then .move 1 2 (some .lastSibling) else .move 2 1 (some .lastSibling)] := by
      unfold swapOps swaps
      rw [List.range_succ, List.map_append]
      rfl
    rw [hsplit]
    have ih := ih (by push_cast at hn; omega)
    unfold runOpsK runOps at ih ⊢
    rw [List.foldl_append, List.foldl_append, ih]
    exact stepK_eq (runOps_consistent (swapOps n) empty_consistent) (swaps_room n hM (by push_cast at hn; omega)) _

/-- **The number of calls is needed, not only the number of rows**: whatever the largest integer, there is a history on two roots, with nothing but
moves after they were added, after which the table has two rows and `add_root` is refused, although it is a proper call. -/
theorem C68_ns_exhausts (hM : 10 ≤ M) : ∃ n : Nat, ∃ db, runOpsK M ⟨[]⟩ { rows := [] } (swapOps n) = db ∧
    Consistent db ∧ db.rows.length = 2 ∧ execK M ⟨[]⟩ db (.addRoot 3 []) = .error .integrity ∧
    (exec ⟨[]⟩ db (.addRoot 3 [])).toOption.isSome = true := by
  refine ⟨(M - 2).toNat, _, rfl, ?_⟩
  have hn : (((M - 2).toNat : Nat) : Int) + 2 = M := by omega
  rw [swaps_K hM _ (by omega)]
  refine ⟨runOps_consistent _ empty_consistent, ?_⟩
  obtain ⟨sigs, e⟩ := swaps_state (M - 2).toNat
  rw [e, hn]
  have hfull : ∀ a b : Int, (a = M ∨ b = M) → (a < b ∨ b < a) → (a ≤ M ∧ b ≤ M) → (pair a b sigs).rows.length = 2 ∧
      execK M ⟨[]⟩ (pair a b sigs) (.addRoot 3 []) = .error .integrity ∧ (exec ⟨[]⟩ (pair a b sigs) (.addRoot 3 [])).toOption.isSome = true := by
    intro a b hab hlt hle
    have hg : (pair a b sigs).get? 3 = none := rfl
    have ho : Cfg.ordered ⟨[]⟩ = false := rfl
    obtain ⟨z, hz, hzt⟩ : ∃ z, lastRootNode (pair a b sigs) = some z ∧ z.tree = M := by
      rcases hlt with h | h
      · exact ⟨⟨2, b, 1, 2, 1, []⟩, by unfold lastRootNode; rw [pair_roots_lt h]; rfl, by dsimp only; omega⟩
      · exact ⟨⟨1, a, 1, 2, 1, []⟩, by unfold lastRootNode; rw [pair_roots_gt h]; rfl, by dsimp only; omega⟩
    refine ⟨rfl, ?_, ?_⟩
    · simp only [execK, hg, addRootK, hz, ho, Bool.false_eq_true, if_false]
      have : written M (save (pair a b sigs) ⟨3, z.tree + 1, 1, 2, 1, []⟩) = .error .integrity := by
        unfold written
        rw [if_neg]
        rw [List.all_eq_true]
        intro hall
        have := hall ⟨3, z.tree + 1, 1, 2, 1, []⟩ (by simp [save, pair])
        unfold Row.fits at this
        rw [decide_eq_true_eq] at this
        dsimp only at this
        omega
      rw [this]
      rfl
    · simp only [exec, hg, addRoot, hz, ho, Bool.false_eq_true, if_false]
      rfl
  split
  · exact hfull _ _ (by omega) (by omega) (by omega)
  · exact hfull _ _ (by omega) (by omega) (by omega)

end Verif.NS

/-! ### AL -/

namespace Verif.AL

variable {cfg : Cfg} {db : DB} {M : Int}

theorem Consistent.sibsIn (h : Consistent cfg db) {B : Int} (hM : ∀ r ∈ db.rows, r.sib ≤ B) : SibsIn B db :=
  fun r hr => ⟨by have := h.sib r hr; omega, hM r hr⟩

/-- **C68 for AL, `add_root`**: with room for one more, no statement leaves the range. -/
theorem C68_al_add_root (ho : cfg.ordered = false) (h : Consistent cfg db) (hM : 1 ≤ M) (hr : ∀ r ∈ db.rows, r.sib ≤ M - 1) (new : Row) :
    addRootK M cfg db new = addRoot cfg db new := addRootK_eq (h.sibsIn hr) hM ho new

/-- **C68 for AL, `add_child`.** -/
theorem C68_al_add_child (ho : cfg.ordered = false) (h : Consistent cfg db) (hM : 1 ≤ M) (hr : ∀ r ∈ db.rows, r.sib ≤ M - 1) (target : Row)
    (c : Option Int) (new : Row) : addChildK M cfg db target c new = addChild cfg db target c new := addChildK_eq (h.sibsIn hr) hM ho target c new

/-- **C68 for AL, `add_sibling`.** -/
theorem C68_al_add_sibling (ho : cfg.ordered = false) (h : Consistent cfg db) (hM : 1 ≤ M) (hr : ∀ r ∈ db.rows, r.sib ≤ M - 1) {t : Row}
    (ht : t ∈ db.rows) (pos : Option Pos) (new : Row) : addSiblingK M cfg db t pos new = addSibling cfg db t pos new :=
  addSiblingK_eq (h.sibsIn hr) hM ho (h.sibsIn hr t ht) pos new

/-- **C68 for AL, `move`.** -/
theorem C68_al_move (h : Consistent cfg db) (hM : 1 ≤ M) (hr : ∀ r ∈ db.rows, r.sib ≤ M - 1) {x t : Row} (hx : x ∈ db.rows) (ht : t ∈ db.rows)
    (c : Option Int) (pos : Option Pos) : moveK M cfg db x t c pos = move cfg db x t c pos :=
  moveK_eq (h.sibsIn hr) hM (h.sibsIn hr x hx) (h.sibsIn hr t ht) c pos

/-- **C68 for AL, histories**: no call leaves the range as long as the largest integer is above every position plus the calls. -/
theorem C68_al_history (ho : cfg.ordered = false) (h : Consistent cfg db) {B : Int} (hB : 0 ≤ B) (hr : ∀ r ∈ db.rows, r.sib ≤ B) (ops : List Op)
    (hM : B + ops.length ≤ M) : runOpsK M cfg db ops = runOps cfg db ops := runOpsK_eq ho ops (h.sibsIn hr) hB hM

example : Consistent exPlain exDB ∧ ∀ r ∈ exDB.rows, r.sib ≤ 9 := ⟨consistent_of_inv rfl exDB_inv, by decide⟩

/-! Two siblings that are moved past each other use up the positions. -/

/-- two roots at the positions `a` and `b` -/
def pair (a b : Int) : DB := ⟨[⟨1, none, a, []⟩, ⟨2, none, b, []⟩]⟩

theorem pair_roots_lt {a b : Int} (h : a < b) : rootNodes exPlain (pair a b) = [⟨1, none, a, []⟩, ⟨2, none, b, []⟩] := by
  have h1 : ¬ b < a := by omega
  simp [rootNodes, exPlain, pair, order, sortBy, ltB, Cfg.ordered, withParent, List.insertionSort, List.orderedInsert, h1]

theorem pair_roots_gt {a b : Int} (h : b < a) : rootNodes exPlain (pair a b) = [⟨2, none, b, []⟩, ⟨1, none, a, []⟩] := by
  simp [rootNodes, exPlain, pair, order, sortBy, ltB, Cfg.ordered, withParent, List.insertionSort, List.orderedInsert, h]

theorem pair_move_lt {a b : Int} (h : a < b) : step exPlain (pair a b) (.move 1 2 (some .lastSibling)) = pair (b + 1) b := by
  have hr := pair_roots_lt h
  have ht : exPlain.ties = id := rfl
  have hp : preparePosForMove exPlain.ordered (some .lastSibling) = .ok .lastSibling := rfl
  unfold pair at hr
  have e : exec exPlain (pair a b) (.move 1 2 (some .lastSibling)) = .ok (pair (b + 1) b) := by
    simp [exec, DB.get?, pair, move, hp, moveGoal, isChildPos, isDescendantOf, descendants, getTree, getDepth, treeRec, tooDeep, treeNodes, children, withParent, order, collect, Except.map,
      noMove, moveTo, goalParent, getParent, goalOrder, newSibOrder, isLastPos, lastSibling, siblings, hr, save, sortBy, ht]
  unfold step
  rw [e]

theorem pair_move_gt {a b : Int} (h : b < a) : step exPlain (pair a b) (.move 2 1 (some .lastSibling)) = pair a (a + 1) := by
  have hr := pair_roots_gt h
  have ht : exPlain.ties = id := rfl
  have hp : preparePosForMove exPlain.ordered (some .lastSibling) = .ok .lastSibling := rfl
  unfold pair at hr
  have e : exec exPlain (pair a b) (.move 2 1 (some .lastSibling)) = .ok (pair a (a + 1)) := by
    simp [exec, DB.get?, pair, move, hp, moveGoal, isChildPos, isDescendantOf, descendants, getTree, getDepth, treeRec, tooDeep, treeNodes, children, withParent, order, collect, Except.map,
      noMove, moveTo, goalParent, getParent, goalOrder, newSibOrder, isLastPos, lastSibling, siblings, hr, save, sortBy, ht]
  unfold step
  rw [e]

/-- `n` moves: each takes the first of the two roots behind the other -/
def swaps (n : Nat) : List Op := (List.range n).map (fun k => if k % 2 = 0 then .move 1 2 (some .lastSibling) else .move 2 1 (some .lastSibling))

/-- the history: two roots, and `n` moves -/
def swapOps (n : Nat) : List Op := .addRoot 1 [] :: .addRoot 2 [] :: swaps n

theorem swapOps_succ (n : Nat) : swapOps (n + 1) = swapOps n ++ [if n % 2 = 0 then .move 1 2 (some .lastSibling) else .move 2 1 (some .lastSibling)] := by
  unfold swapOps swaps
  rw [List.range_succ, List.map_append]
  rfl

theorem swaps_state (n : Nat) : runOps exPlain ⟨[]⟩ (swapOps n) = if n % 2 = 0 then pair (n + 1) (n + 2) else pair (n + 2) (n + 1) := by
  induction n with
  | zero => decide
  | succ n e =>
    have hrun : runOps exPlain ⟨[]⟩ (swapOps (n + 1)) = step exPlain (runOps exPlain ⟨[]⟩ (swapOps n))
        (if n % 2 = 0 then .move 1 2 (some .lastSibling) else .move 2 1 (some .lastSibling)) := by
      unfold runOps
      rw [swapOps_succ, List.foldl_append]
      rfl
    rw [hrun, e]
    by_cases hn : n % 2 = 0
    · rw [if_pos hn, if_pos hn, if_neg (by omega)]
      refine (pair_move_lt (a := n + 1) (b := n + 2) (by omega)).trans ?_
      unfold pair
      push_cast
      rw [show (n : Int) + 2 + 1 = n + 1 + 2 by omega, show (n : Int) + 2 = n + 1 + 1 by omega]
    · rw [if_neg hn, if_neg hn, if_pos (by omega)]
      refine (pair_move_gt (a := n + 2) (b := n + 1) (by omega)).trans ?_
      unfold pair
      push_cast
      rw [show (n : Int) + 2 + 1 = n + 1 + 2 by omega, show (n : Int) + 2 = n + 1 + 1 by omega]

theorem swapOps_length (n : Nat) : (swapOps n).length = n + 2 := by simp [swapOps, swaps]

/-- **The number of calls is needed, not only the number of rows**: whatever the largest integer, there is a history on two roots, with nothing but
moves after they were added, after which the table has two rows and `add_root` is refused, although it is a proper call. -/
theorem C68_al_exhausts (hM : 2 ≤ M) : ∃ n : Nat, ∃ db, runOpsK M exPlain ⟨[]⟩ (swapOps n) = db ∧
    db.rows.length = 2 ∧ execK M exPlain db (.addRoot 3 []) = .error .integrity ∧
    (exec exPlain db (.addRoot 3 [])).toOption.isSome = true := by
  refine ⟨(M - 2).toNat, _, rfl, ?_⟩
  have hn : (((M - 2).toNat : Nat) : Int) + 2 = M := by omega
  have ho : exPlain.ordered = false := rfl
  rw [runOpsK_eq ho (swapOps (M - 2).toNat) (B := 0) (by intro r hr; cases hr) (le_refl _) (by rw [swapOps_length]; push_cast; omega), swaps_state, hn]
  have hfull : ∀ a b : Int, (a = M ∨ b = M) → (a ≤ M ∧ b ≤ M) → (pair a b).rows.length = 2 ∧
      execK M exPlain (pair a b) (.addRoot 3 []) = .error .integrity ∧ (exec exPlain (pair a b) (.addRoot 3 [])).toOption.isSome = true := by
    intro a b hab hle
    have hg : (pair a b).get? 3 = none := rfl
    have hm : maxSib (withParent (pair a b) none) = M := by
      simp [maxSib, withParent, pair, List.max?_cons]
      omega
    refine ⟨rfl, ?_, ?_⟩
    · simp only [execK, hg, addRootK, ho, Bool.false_eq_true, if_false, hm]
      have : saveK M (pair a b) ⟨3, none, M + 1, []⟩ = .error .integrity := by
        show written M _ = _
        unfold written
        rw [if_neg]
        rw [List.all_eq_true]
        intro hall
        have := hall ⟨3, none, M + 1, []⟩ (by simp [pair])
        unfold Row.fits at this
        rw [decide_eq_true_eq] at this
        dsimp only at this
        omega
      rw [this]
      rfl
    · simp only [exec, hg, addRoot, ho, Bool.false_eq_true, if_false, hm]
      rfl
  split
  · exact hfull _ _ (by omega) (by omega)
  · exact hfull _ _ (by omega) (by omega)

end Verif.AL
