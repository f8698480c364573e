/-
C07, C08 (MP), C12, and the moves of C16.
-/
import Verif.Props.MPAdd
import Verif.MP.Example

namespace Verif

open MP

variable {cfg : Cfg} {db : DB}

/-! ### Vocabulary -/

/-- After a move: `F` is the forest, the table is consistent, no data changed, and the returned node is its stored row. -/
structure MovedTo (cfg : Cfg) (db : DB) (res : MoveResult) (x : Row) (F : Forest) : Prop where
  consistent : Consistent cfg res.db
  forest : forest cfg res.db = F
  data : data res.db.rows = data db.rows
  node : res.node ∈ res.db.rows ∧ res.node.pk = x.pk

/-- The room that `move` needs and does not check: if the node already is a child of its new parent `p`, then two
more positions after the last sibling can be written in `steplen` characters (mp_tree.py:790-798). -/
def TempFits (cfg : Cfg) (db : DB) (x : Nat) (p : Option Nat) : Prop :=
  x ∈ forest cfg db p → ∀ r ∈ db.rows, r.pk ∈ forest cfg db p → ∀ n, lastpos cfg r.path = .ok n →
    n + 2 < cfg.alphabet.length ^ cfg.steplen

/-- `a` stands before `b` -/
def Stands (l : List Nat) (a b : Nat) : Prop := [a, b].Sublist l

/-- The place asked for is on the left of the place of `x`, below the same parent: for the first place, `x` is not the first;
for the places beside `t`, `t` stands before `x`; for the sorted place, a node that belongs after `x` stands before it. -/
def _root_.Verif.Forest.GoesLeft (F : Forest) (ob : List (Nat × Bool)) (v : Nat → Vals) (x : Nat) (p : Option Nat) (t : Nat) (pos : Pos) : Prop :=
  match pos with
  | .firstSibling | .firstChild => ∃ z, Stands (F (pos.dest p t)) z x
  | .left | .right => Stands (F p) t x
  | .sortedSibling | .sortedChild => ∃ z, Stands (F (pos.dest p t)) z x ∧ keyLt ob (v x) (v z)
  | _ => False

/-- The guard of `move`: if the node goes to the left among its siblings, there is room for the temporary place. -/
def MoveFits (cfg : Cfg) (db : DB) (x : Nat) (p : Option Nat) (t : Nat) (pos : Pos) : Prop :=
  (forest cfg db).GoesLeft cfg.orderBy (valsOf db) x p t pos → TempFits cfg db x (pos.dest p t)

theorem stands_of (hok : cfg.Ok) (h : Inv cfg db.rows) {a b : Row} (ha : a ∈ db.rows) (hb : b ∈ db.rows) {P : List Nat} (hP : IsPar db.rows P)
    (hpa : pp cfg.steplen a.path = P) (hpb : pp cfg.steplen b.path = P) (hlt : a.path < b.path) :
    Stands (forest cfg db (at? db.rows P)) a.pk b.pk := by
  obtain ⟨l, e, hs, hm⟩ := sibs_list h.toPInv hok hP
  rw [forest_eq h hok, e]
  obtain ⟨l₁, l₂, rfl⟩ := List.append_of_mem ((hm a).2 ⟨ha, hpa⟩)
  have hb' := (hm b).2 ⟨hb, hpb⟩
  rw [List.pairwise_append, List.pairwise_cons] at hs
  have : b ∈ l₂ := by
    rcases List.mem_append.1 hb' with h1 | h1
    · exact absurd (hs.2.2 b h1 a (by simp)) (plt_asymm hlt)
    · rcases List.mem_cons.1 h1 with rfl | h1
      · exact absurd hlt (plt_irrefl _)
      · exact h1
  rw [List.map_append, List.map_cons]
  refine List.Sublist.trans ?_ (List.sublist_append_right _ _)
  exact List.Sublist.cons_cons _ (List.singleton_sublist.2 (List.mem_map_of_mem this))

theorem MovedTo.of (hok : cfg.Ok) {res : MoveResult} {x t : Row} {P : List Nat} {F : Forest} (h : MoveGood cfg db res x t P F) :
    MovedTo cfg db res x F :=
  ⟨(consistent_iff hok).2 h.inv, by rw [forest_eq h.inv hok]; exact h.forest, h.data, h.node⟩

theorem isChildPos_eq (pos : Pos) : isChildPos pos = pos.isChild := by cases pos <;> rfl

theorem refused_iff (hok : cfg.Ok) (h : Inv cfg db.rows) {x t : Row} (hx : x ∈ db.rows) (ht : t ∈ db.rows) (pos : Pos) :
    Refused x t pos ↔ (forest cfg db).MoveRefused x.pk t.pk pos := by
  unfold Refused Forest.MoveRefused
  rw [isDescendantOf_PF h.toPInv hok ht hx, forest_eq h hok, isChildPos_eq]

theorem destPath_isPar (h : Inv cfg db.rows) {t : Row} (ht : t ∈ db.rows) (pos : Pos) : IsPar db.rows (destPath cfg pos t) := by
  unfold destPath
  split
  · exact Or.inr ⟨t, ht, rfl⟩
  · exact isPar_pp h.toPInv ht

theorem at?_dest (h : Inv cfg db.rows) {t : Row} (ht : t ∈ db.rows) (pos : Pos) :
    at? db.rows (destPath cfg pos t) = pos.dest (par cfg db.rows t) t.pk := by
  unfold destPath Pos.dest
  rw [isChildPos_eq]
  split
  · exact at?_row h.toPInv ht
  · rfl

theorem goesLeft_of (hok : cfg.Ok) (h : Inv cfg db.rows) {x t : Row} (hx : x ∈ db.rows) (ht : t ∈ db.rows) {pos : Pos}
    (hxp : pp cfg.steplen x.path = destPath cfg pos t) (hl : LeftOf cfg db.rows x t pos) :
    (forest cfg db).GoesLeft cfg.orderBy (valsOf db) x.pk (par cfg db.rows t) t.pk pos := by
  have hP := destPath_isPar (cfg := cfg) h ht pos
  have hst : ∀ z ∈ db.rows, pp cfg.steplen z.path = destPath cfg pos t → z.path < x.path →
      Stands (forest cfg db (pos.dest (par cfg db.rows t) t.pk)) z.pk x.pk := by
    intro z hz hzp hlt
    rw [← at?_dest h ht pos]
    exact stands_of hok h hz hx hP hzp hxp hlt
  cases pos with
  | firstSibling => obtain ⟨z, hz, h1, h2⟩ := hl; exact ⟨z.pk, hst z hz h1 h2⟩
  | firstChild => obtain ⟨z, hz, h1, h2⟩ := hl; exact ⟨z.pk, hst z hz h1 h2⟩
  | left => exact hst t ht rfl hl
  | right => exact hst t ht rfl hl
  | sortedSibling =>
    obtain ⟨z, hz, h1, h2, h3⟩ := hl
    exact ⟨z.pk, hst z hz h1 h2, by rw [valsOf_row h.inv hx, valsOf_row h.inv hz]; exact h3⟩
  | sortedChild =>
    obtain ⟨z, hz, h1, h2, h3⟩ := hl
    exact ⟨z.pk, hst z hz h1 h2, by rw [valsOf_row h.inv hx, valsOf_row h.inv hz]; exact h3⟩
  | lastSibling => exact hl.elim
  | lastChild => exact hl.elim
  | other => exact hl.elim

theorem moveRoom_of (hok : cfg.Ok) (h : Inv cfg db.rows) {x t : Row} (hx : x ∈ db.rows) (ht : t ∈ db.rows) {pos : Pos}
    (hfit : MoveFits cfg db x.pk (par cfg db.rows t) t.pk pos) : MoveRoom cfg db.rows x t pos := by
  have hP := destPath_isPar (cfg := cfg) h ht pos
  have hmem : ∀ r ∈ db.rows, pp cfg.steplen r.path = destPath cfg pos t →
      r.pk ∈ forest cfg db (pos.dest (par cfg db.rows t) t.pk) := by
    intro r hr e
    rw [forest_eq h hok, mem_PF h.toPInv, ← at?_dest h ht pos]
    exact ⟨r, hr, (par_eq_at h.toPInv hok hr hP).2 e, rfl⟩
  intro hxp hl r hr hrp n hn hcap
  exact hfit (goesLeft_of hok h hx ht hxp hl) (hmem x hx hxp) r hr (hmem r hr hrp) n (by rw [hn]; exact lastpos_eq hok _ hcap)

theorem plainPos_prep {pos : Pos} (hpos : IsPlainPos pos) {posArg : Option Pos}
    (harg : posArg = some pos ∨ (posArg = none ∧ pos = .lastSibling)) : preparePosForMove false posArg = .ok pos := by
  rcases harg with rfl | ⟨rfl, rfl⟩
  · rcases hpos with (rfl | rfl | rfl | rfl) | rfl | rfl <;> decide
  · decide

/-! ### C07 -/

/-- **C07** (partial: under `MoveFits`, because the code overwrites the tree silently without it, see
`C12_move_corrupts`).  On every consistent tree without `node_order_by`, for every node, every target outside the
node's branch and every position, `move` gives exactly the forest asked for — the node at the requested place with
its whole branch, every other node with its parent and relative order — or raises PathOverflow, and then the last
position below the new parent is taken. -/
theorem C07_move_partial (hok : cfg.Ok) (h : Consistent cfg db) (ho : cfg.ordered = false) {x t : Row} (hx : x ∈ db.rows)
    (ht : t ∈ db.rows) {pos : Pos} (hpos : IsPlainPos pos) {posArg : Option Pos}
    (harg : posArg = some pos ∨ (posArg = none ∧ pos = .lastSibling))
    (hin : ¬ (forest cfg db).MoveRefused x.pk t.pk pos) :
    ∃ p, t.pk ∈ forest cfg db p ∧ (MoveFits cfg db x.pk p t.pk pos →
      (∃ res, move cfg db x t posArg = .ok res ∧ MovedTo cfg db res x ((forest cfg db).moveAsked x.pk p t.pk pos)) ∨
      (move cfg db x t posArg = .error .pathOverflow ∧ LastTaken cfg db (pos.dest p t.pk))) := by
  have h := (consistent_iff hok).1 h
  refine ⟨par cfg db.rows t, mem_forest_par hok h ht, ?_⟩
  intro hfit
  rcases move_unsorted hok h ho hx ht (plainPos_prep hpos harg) (moveRoom_of hok h hx ht hfit) with ⟨hr, _⟩ | ⟨_, hm⟩
  · exact absurd ((refused_iff hok h hx ht pos).1 hr) hin
  · rcases hm with ⟨res, e, hg⟩ | ⟨e, hu⟩
    · left
      rw [forest_eq h hok]
      exact ⟨res, e, MovedTo.of hok hg⟩
    · right
      have := lastTaken_of hok h (destPath_isPar h ht pos) hu
      rw [at?_dest h ht pos] at this
      exact ⟨e, this⟩

example : Consistent exCfg exDB ∧ (⟨3, [49, 51], 2, 1, []⟩ : Row) ∈ exDB.rows ∧ (⟨2, [49, 49], 2, 0, []⟩ : Row) ∈ exDB.rows ∧
    TempFits exCfg exDB 3 (some 1) ∧
    (∃ res, move exCfg exDB ⟨3, [49, 51], 2, 1, []⟩ ⟨2, [49, 49], 2, 0, []⟩ (some .left) = .ok res ∧
      forest exCfg res.db (some 1) = [3, 2] ∧ forest exCfg res.db (some 3) = [4]) := by
  refine ⟨exDB_consistent, by decide, by decide, ?_, ?_⟩
  · intro _ r hr _ n hn
    simp only [exDB, List.mem_cons, List.not_mem_nil, or_false] at hr
    rcases hr with rfl | rfl | rfl | rfl | rfl <;> (revert hn; simp [lastpos, lastStep, exCfg, NumConv.str2int, NumConv.str2intLoop, NumConv.digit, List.range', List.findIdx?_cons]; rintro rfl; decide)
  · refine ⟨_, rfl, by decide, by decide⟩

/-- **C07 where the guard is not needed**: the node gets a new parent, goes to the last place, or beside a node that it
stands before.  Then, with any alphabet and however full the siblings are, the move gives exactly the forest asked for or
raises PathOverflow. -/
theorem C07_move_free (hok : cfg.Ok) (h : Consistent cfg db) (ho : cfg.ordered = false) {x t : Row} (hx : x ∈ db.rows)
    (ht : t ∈ db.rows) {pos : Pos} (hpos : IsPlainPos pos) {posArg : Option Pos}
    (harg : posArg = some pos ∨ (posArg = none ∧ pos = .lastSibling))
    (hin : ¬ (forest cfg db).MoveRefused x.pk t.pk pos) :
    ∃ p, t.pk ∈ forest cfg db p ∧
      (x.pk ∉ forest cfg db (pos.dest p t.pk) ∨ pos = .lastSibling ∨ pos = .lastChild ∨
        ((pos = .left ∨ pos = .right) ∧ ¬ Stands (forest cfg db p) t.pk x.pk) →
      (∃ res, move cfg db x t posArg = .ok res ∧ MovedTo cfg db res x ((forest cfg db).moveAsked x.pk p t.pk pos)) ∨
      (move cfg db x t posArg = .error .pathOverflow ∧ LastTaken cfg db (pos.dest p t.pk))) := by
  obtain ⟨p, hp, hm⟩ := C07_move_partial hok h ho hx ht hpos harg hin
  refine ⟨p, hp, fun hc => hm ?_⟩
  rcases hc with hc | rfl | rfl | ⟨rfl | rfl, hc⟩
  · exact fun _ hx => absurd hx hc
  · exact fun hg => hg.elim
  · exact fun hg => hg.elim
  · exact fun hg => absurd hg hc
  · exact fun hg => absurd hg hc

/-- the cramped siblings 1, 2, 3 and 8 of 9: moves to the right and to the last place are fine -/
example : ∃ db : DB, db = { rows := [⟨1, [49], 1, 0, []⟩, ⟨2, [50], 1, 0, []⟩, ⟨3, [51], 1, 0, []⟩, ⟨4, [56], 1, 0, []⟩] } ∧ Consistent exCfg db ∧
    ¬ TempFits exCfg db 1 none ∧ ¬ Stands (forest exCfg db none) 3 1 ∧
    (∃ res, move exCfg db ⟨1, [49], 1, 0, []⟩ ⟨3, [51], 1, 0, []⟩ (some .right) = .ok res ∧ forest exCfg res.db none = [2, 3, 1, 4]) ∧
    (∃ res, move exCfg db ⟨1, [49], 1, 0, []⟩ ⟨3, [51], 1, 0, []⟩ none = .ok res ∧ forest exCfg res.db none = [2, 3, 4, 1]) := by
  refine ⟨_, rfl, ⟨by decide, by decide, by intro p; cases p <;> decide, by decide, by decide⟩, ?_, ?_, ⟨_, rfl, by decide⟩, ⟨_, rfl, by decide⟩⟩
  · intro h
    exact absurd (h (by decide) ⟨4, [56], 1, 0, []⟩ (by decide) (by decide) 8 rfl) (by decide)
  · unfold Stands; decide

/-! ### C16, moves -/

/-- **C16, `move` with `node_order_by`** (partial only in the guard `MoveFits`, as for C07).  The other siblings are
sorted; the node itself may be out of place, as after editing its values.  The move puts it at its sorted place
below the new parent — after the equal ones — and the whole tree is sorted again. -/
theorem C16_move_partial (hok : cfg.Ok) (h : Consistent cfg db) (ho : cfg.ordered = true) {x t : Row} (hx : x ∈ db.rows)
    (ht : t ∈ db.rows) (hn : AllNonNull cfg db) (hs : ((forest cfg db).remove x.pk).SortedBy cfg.orderBy (valsOf db))
    {pos : Pos} {posArg : Option Pos} (hprep : preparePosForMove true posArg = .ok pos)
    (hin : ¬ (forest cfg db).MoveRefused x.pk t.pk pos) :
    ∃ p, t.pk ∈ forest cfg db p ∧ (MoveFits cfg db x.pk p t.pk pos →
      (∃ res s, move cfg db x t posArg = .ok res ∧
        MovedTo cfg db res x ((forest cfg db).move x.pk (pos.dest p t.pk) s) ∧
        SortedTree cfg res.db ∧
        (forest cfg res.db).SortedAt cfg.orderBy (valsOf res.db) (pos.dest p t.pk) x.pk) ∨
      (move cfg db x t posArg = .error .pathOverflow ∧ LastTaken cfg db (pos.dest p t.pk))) := by
  have h := (consistent_iff hok).1 h
  rw [forest_eq h hok] at hs
  have hP := destPath_isPar (cfg := cfg) h ht pos
  have hsib := sortedSibs_except h.toPInv hok hn hs hP
  refine ⟨par cfg db.rows t, mem_forest_par hok h ht, ?_⟩
  intro hfit
  rcases move_sorted hok h ho hx ht hprep (hn x hx) hsib (moveRoom_of hok h hx ht hfit) with ⟨hr, _⟩ | ⟨_, s, hslot, hm⟩
  · exact absurd ((refused_iff hok h hx ht pos).1 hr) hin
  · have hd : destPar (par cfg db.rows t) t.pk pos = pos.dest (par cfg db.rows t) t.pk := by
      unfold destPar Pos.dest; rw [isChildPos_eq]
    rw [hd] at hm
    rcases hm with ⟨res, e, hg⟩ | ⟨e, hu⟩
    · left
      have hins := sortedIns_of_slot h.toPInv hok hP hslot x.pk
      rw [at?_dest h ht pos, ← valsOf_row h.toPInv.inv hx] at hins
      obtain ⟨h1, h2⟩ := SortedBy.move hs hins
      rw [forest_eq h hok]
      have hmv := MovedTo.of hok hg
      refine ⟨res, s, e, hmv, ⟨?_, ?_⟩, ?_⟩
      · rw [allNonNull_data, hg.data, ← allNonNull_data]; exact hn
      · rw [hmv.forest, valsOf_congr hg.data]; exact h1
      · rw [hmv.forest, valsOf_congr hg.data]; exact h2
    · right
      have := lastTaken_of hok h hP hu
      rw [at?_dest h ht pos] at this
      exact ⟨e, this⟩

theorem SortedBy.stands {ob : List (Nat × Bool)} {F : Forest} {v : Nat → Vals} (hs : F.SortedBy ob v) {p : Option Nat} {a b : Nat}
    (h : Stands (F p) a b) : ¬ keyLt ob (v b) (v a) := by
  have := (hs p).sublist h
  simp only [List.pairwise_cons, List.mem_singleton, forall_eq] at this
  exact this.1

/-- in a sorted tree a sorted move never goes to the left -/
theorem moveFits_sorted (hs : SortedTree cfg db) (x : Nat) (p : Option Nat) (t : Nat) {pos : Pos}
    (hpos : pos = .sortedSibling ∨ pos = .sortedChild) : MoveFits cfg db x p t pos := by
  rcases hpos with rfl | rfl <;>
  · rintro ⟨z, h1, h2⟩
    exact absurd h2 (SortedBy.stands hs.sorted h1)

/-- **C16, `move` in a sorted tree**, without a guard: the node gets its sorted place below the new parent and the tree stays
sorted, or PathOverflow is raised. -/
theorem C16_move (hok : cfg.Ok) (h : Consistent cfg db) (ho : cfg.ordered = true) (hs : SortedTree cfg db) {x t : Row} (hx : x ∈ db.rows)
    (ht : t ∈ db.rows) {pos : Pos} {posArg : Option Pos} (hprep : preparePosForMove true posArg = .ok pos)
    (hin : ¬ (forest cfg db).MoveRefused x.pk t.pk pos) :
    ∃ p, t.pk ∈ forest cfg db p ∧
      ((∃ res s, move cfg db x t posArg = .ok res ∧
        MovedTo cfg db res x ((forest cfg db).move x.pk (pos.dest p t.pk) s) ∧
        SortedTree cfg res.db ∧
        (forest cfg res.db).SortedAt cfg.orderBy (valsOf res.db) (pos.dest p t.pk) x.pk) ∨
      (move cfg db x t posArg = .error .pathOverflow ∧ LastTaken cfg db (pos.dest p t.pk))) := by
  obtain ⟨p, hp, hm⟩ := C16_move_partial hok h ho hx ht hs.nonNull (SortedBy.remove hs.sorted x.pk) hprep hin
  exact ⟨p, hp, hm (moveFits_sorted hs _ _ _ (sorted_of_prep hprep))⟩

example : Consistent exCfgS exDBS ∧ SortedTree exCfgS exDBS ∧
    ∃ res, move exCfgS exDBS ⟨4, [50, 49], 2, 0, [some 2, some 0]⟩ ⟨2, [50], 1, 2, [some 1, some 2]⟩ none = .ok res ∧
      forest exCfgS res.db none = [1, 2, 4, 3] := ⟨exDBS_consistent, ⟨exDBS_sorted.1, exDBS_sorted.2⟩, _, rfl, by decide⟩

/-- node 1 got the values (9, 9) and is moved to its sorted place -/
example : ∃ res, move exCfgS { rows := [⟨1, [49], 1, 0, [some 9, some 9]⟩, ⟨2, [50], 1, 0, [some 1, some 2]⟩, ⟨3, [52], 1, 0, [some 7, some 0]⟩] }
    ⟨1, [49], 1, 0, [some 9, some 9]⟩ ⟨2, [50], 1, 0, [some 1, some 2]⟩ (some .sortedSibling) = .ok res ∧
    forest exCfgS res.db none = [2, 3, 1] := ⟨_, rfl, by decide⟩

/-! ### C08 for MP -/

/-- **C08 for MP.** A move into the node's own branch raises InvalidMoveToDescendant (and so changes nothing), for
every consistent tree, with and without `node_order_by`, and every valid position. -/
theorem C08_mp (hok : cfg.Ok) (h : Consistent cfg db) {x t : Row} (hx : x ∈ db.rows) (ht : t ∈ db.rows) {pos : Pos}
    {posArg : Option Pos} (hprep : preparePosForMove cfg.ordered posArg = .ok pos)
    (hin : (forest cfg db).MoveRefused x.pk t.pk pos) : move cfg db x t posArg = .error .invalidMoveToDescendant := by
  have h := (consistent_iff hok).1 h
  have hr := (refused_iff hok h hx ht pos).2 hin
  unfold move
  rw [hprep]
  simp only
  rcases moveToChildVars_spec hok h hx ht pos with ⟨_, e | ⟨v, e, hd⟩⟩ | ⟨hn, _⟩ | ⟨hn, _⟩ | ⟨hn, _⟩
  · rw [e]
  · rw [e]; simp only [hd, if_true]
  all_goals exact absurd hr hn

example : (forest exCfg exDB).MoveRefused 1 4 .left ∧
    move exCfg exDB ⟨1, [49], 1, 2, []⟩ ⟨4, [49, 51, 49], 3, 0, []⟩ (some .left) = .error .invalidMoveToDescendant := by
  refine ⟨Or.inl (.step (.child (d := 3) ?_) ?_), rfl⟩ <;> decide

/-! ### C12 -/

/-- four siblings at positions 1, 2, 3 and 8 of 9 -/
def crampedDB : DB := { rows := [⟨1, [49], 1, 0, []⟩, ⟨2, [50], 1, 0, []⟩, ⟨3, [51], 1, 0, []⟩, ⟨4, [56], 1, 0, []⟩] }

/-- **C12 is violated by the code.** There is a consistent tree, with room left, on which a move within one group of
siblings neither raises nor puts the node where asked: the temporary position 8 + 2 = "10" does not fit in one
character, the shift of the sibling at "1" takes the moved node along, and the result is inconsistent: node 3 is left
below node 1. -/
theorem C12_move_corrupts : Consistent exCfg crampedDB ∧
    ∃ res, move exCfg crampedDB ⟨3, [51], 1, 0, []⟩ ⟨1, [49], 1, 0, []⟩ (some .left) = .ok res ∧
      ¬ Consistent exCfg res.db ∧ forest exCfg res.db none ≠ [3, 1, 2, 4] ∧
      ¬ LastTaken exCfg crampedDB none := by
  refine ⟨⟨by decide, by decide, by intro p; cases p <;> decide, by decide, by decide⟩, _, rfl, ?_, by decide, ?_⟩
  · intro h
    exact absurd (h.problems .wrongNumchild) (by decide)
  · rintro ⟨r, hr, _, hs⟩
    revert r
    decide

end Verif
