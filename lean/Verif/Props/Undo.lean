/-
C85: a move can be undone by a move.
-/
import Verif.UndoLemmas
import Verif.Props.Arrange

namespace Verif

/-- a key of the former forest is stored -/
theorem Forest.WasAt.key {F : Forest} {ids : List Nat} {x s : Nat} {q : Option Nat} {pos : Pos} (hF : F.IsForestOn ids) (hx : x ∈ ids) (h : F.WasAt x q s pos) : s ∈ ids := by
  rcases h.other with ⟨_, hs⟩ | ⟨_, rfl⟩
  · exact hF.good.sub _ _ hs
  · by_contra hn
    have := h.mem
    rw [hF.outside s hn] at this
    cases this

namespace NS

variable {cfg : Cfg} {db : DB}

/-- **C85 for NS**: whatever the move, the node object that was moved and an object fetched for the node `s` it was placed by bring it back: the forest and the data are as before. -/
theorem C85_ns (h : Consistent db) (ho : cfg.ordered = false) {x t : Row} (hx : x ∈ db.rows) (ht : t ∈ db.rows) {posArg : Option Pos} {pos : Pos}
    (hprep : preparePosForMove false posArg = .ok pos) (hr : ¬ (forest db).MoveRefused x.pk t.pk pos) {q : Option Nat} {s : Nat} {back : Pos} (hw : (forest db).WasAt x.pk q s back) :
    ∃ res, move cfg db x t none posArg = .ok res ∧ ∃ s' ∈ res.db.rows, s'.pk = s ∧ ∃ res', move cfg res.db res.node s' none (some back) = .ok res' ∧
      Consistent res'.db ∧ forest res'.db = forest db ∧ data res'.db.rows = data db.rows := by
  have hF := isForestOn h
  obtain ⟨p, hp, res, e, hm⟩ := C23_move h ho hx ht (cached := none) (by intro p hp; cases hp) hprep hr
  refine ⟨res, e, ?_⟩
  have hG := isForestOn hm.consistent
  have hg : (forest res.db).remove x.pk = (forest db).remove x.pk := by rw [hm.forest, Forest.remove_moveAsked]
  have hs : s ∈ (data res.db.rows).map Prod.fst := by
    rw [hm.data]
    exact hw.key hF (by rw [keys_eq]; exact List.mem_map_of_mem hx)
  rw [keys_eq] at hs
  obtain ⟨s', hs', rfl⟩ := List.mem_map.1 hs
  have hr' := hw.not_refused hF hG hg
  rw [← hm.node.2] at hr'
  obtain ⟨p', hp', res', e', hm'⟩ := C23_move hm.consistent ho hm.node.1 hs' (cached := none) (by intro p hp; cases hp) hw.prep.1 hr'
  refine ⟨s', hs', rfl, res', e', hm'.consistent, ?_, hm'.data.trans hm.data⟩
  rw [hm'.forest, hm.node.2, (hw.parent hF hG hg hp').1, hw.back hF hg]

/-- 3, with the children 4 and 5, goes below 7 and comes back to the right of 2 -/
example : Consistent loopDB ∧ ((move ⟨[]⟩ loopDB ⟨3, 1, 6, 11, 2, []⟩ ⟨2, 1, 2, 5, 2, []⟩ none (some .firstChild)).toOption.bind (fun a =>
      (a.db.get? 2).bind (fun s => (move ⟨[]⟩ a.db a.node s none (some .right)).toOption.map (fun b => (forest a.db (some 2), forest b.db (some 1)))))) = some ([3, 7], [2, 3, 6]) ∧
    (forest loopDB).WasAt 3 (some 1) 2 .right :=
  ⟨loopDB_inv, by decide +kernel, .right (l := []) (r := [6]) (by decide +kernel)⟩

end NS

namespace AL

variable {cfg : Cfg} {db : DB}

/-- **C85 for AL.** -/
theorem C85_al (h : Consistent cfg db) (ho : cfg.ordered = false) {x t : Row} (hx : x ∈ db.rows) (ht : t ∈ db.rows) {cached cached' : Option Int} {posArg : Option Pos} {pos : Pos}
    (hprep : preparePosForMove false posArg = .ok pos) (hr : ¬ (forest cfg db).MoveRefused x.pk t.pk pos) {q : Option Nat} {s : Nat} {back : Pos} (hw : (forest cfg db).WasAt x.pk q s back) :
    ∃ db' obj, move cfg db x t cached posArg = .ok (db', obj) ∧ ∃ s' ∈ db'.rows, s'.pk = s ∧ ∃ db'' obj', move cfg db' obj s' cached' (some back) = .ok (db'', obj') ∧
      Consistent cfg db'' ∧ forest cfg db'' = forest cfg db ∧ data db''.rows = data db.rows := by
  have hkeys' : ∀ rows : List Row, (data rows).map Prod.fst = rows.map Row.pk := fun rows => by unfold data; rw [List.map_map]; rfl
  have hF := isForestOn (cfg := cfg) h.toWf.ai
  obtain ⟨p, hp, db', obj, e, hm⟩ := C31_move ho h hx ht (cached := cached) hprep hr
  refine ⟨db', obj, e, ?_⟩
  have hG := isForestOn (cfg := cfg) hm.consistent.toWf.ai
  have hg : (forest cfg db').remove x.pk = (forest cfg db).remove x.pk := by rw [hm.forest, Forest.remove_moveAsked]
  have hs : s ∈ (data db'.rows).map Prod.fst := by
    rw [hm.data]
    exact hw.key hF (by rw [hkeys']; exact List.mem_map_of_mem hx)
  rw [hkeys'] at hs
  obtain ⟨s', hs', rfl⟩ := List.mem_map.1 hs
  have hr' := hw.not_refused hF hG hg
  rw [← hm.obj.2] at hr'
  obtain ⟨p', hp', db'', obj', e', hm'⟩ := C31_move ho hm.consistent hm.obj.1 hs' (cached := cached') hw.prep.1 hr'
  refine ⟨s', hs', rfl, db'', obj', e', hm'.consistent, ?_, hm'.data.trans hm.data⟩
  rw [hm'.forest, hm.obj.2, (hw.parent hF hG hg hp').1, hw.back hF hg]

/-- 2 goes to the right of 5 and comes back to the left of 3 -/
example : Consistent exPlain exDB ∧ ((move exPlain exDB ⟨2, some 1, 1, []⟩ ⟨5, none, 3, []⟩ none (some .right)).toOption.bind (fun a =>
      (a.1.get? 3).bind (fun s => (move exPlain a.1 a.2 s none (some .left)).toOption.map (fun b => (forest exPlain a.1 none, forest exPlain b.1 (some 1)))))) = some ([1, 5, 2], [2, 3]) ∧
    (forest exPlain exDB).WasAt 2 (some 1) 3 .left :=
  ⟨consistent_of_inv rfl exDB_inv, by decide +kernel, .left (l := []) (r := []) (by decide +kernel)⟩

end AL

namespace MP

variable {cfg : Cfg} {db : DB}

/-- **C85 for MP** (partial: under the guard `MoveFits` of C07 for both moves, and the move back can end with a path overflow, see `C85_mp_fails`; then the last position in the former place
is taken, and nothing is changed). -/
theorem C85_mp_partial (hok : cfg.Ok) (h : Consistent cfg db) (ho : cfg.ordered = false) {x t : Row} (hx : x ∈ db.rows) (ht : t ∈ db.rows) {pos : Pos} (hpos : IsPlainPos pos)
    {posArg : Option Pos} (harg : posArg = some pos ∨ (posArg = none ∧ pos = .lastSibling)) (hr : ¬ (forest cfg db).MoveRefused x.pk t.pk pos)
    (hfit : ∀ p, t.pk ∈ forest cfg db p → MoveFits cfg db x.pk p t.pk pos) {res : MoveResult} (hmove : move cfg db x t posArg = .ok res)
    {q : Option Nat} {s : Nat} {back : Pos} (hw : (forest cfg db).WasAt x.pk q s back) (hfit' : ∀ p, s ∈ forest cfg res.db p → MoveFits cfg res.db x.pk p s back) :
    ∃ s' ∈ res.db.rows, s'.pk = s ∧
      ((∃ res', move cfg res.db res.node s' (some back) = .ok res' ∧ Consistent cfg res'.db ∧ forest cfg res'.db = forest cfg db ∧ data res'.db.rows = data db.rows) ∨
       (move cfg res.db res.node s' (some back) = .error .pathOverflow ∧ LastTaken cfg res.db q)) := by
  have hF := isForestOn_forest hok h
  obtain ⟨p, hp, hm⟩ := C07_move_partial hok h ho hx ht hpos harg hr
  rcases hm (hfit p hp) with ⟨res0, e, hm⟩ | ⟨e, _⟩
  swap
  · rw [hmove] at e; cases e
  rw [hmove, Except.ok.injEq] at e
  subst e
  have hG := isForestOn_forest hok hm.consistent
  have hg : (forest cfg res.db).remove x.pk = (forest cfg db).remove x.pk := by rw [hm.forest, Forest.remove_moveAsked]
  have hkeys : res.db.rows.map Row.pk = db.rows.map Row.pk := by
    have := congrArg (List.map Prod.fst) hm.data
    simpa [data, List.map_map, Function.comp_def] using this
  have hs : s ∈ res.db.rows.map Row.pk := by
    rw [hkeys]
    exact hw.key hF (List.mem_map_of_mem hx)
  obtain ⟨s', hs', rfl⟩ := List.mem_map.1 hs
  have hr' := hw.not_refused hF hG hg
  rw [← hm.node.2] at hr'
  obtain ⟨p', hp', hm'⟩ := C07_move_partial hok hm.consistent ho hm.node.1 hs' hw.prep.2 (posArg := some back) (Or.inl rfl) hr'
  refine ⟨s', hs', rfl, ?_⟩
  obtain ⟨h1, h2⟩ := hw.parent hF hG hg hp'
  rcases hm' (by rw [hm.node.2]; exact hfit' p' hp') with ⟨res', e', hm'⟩ | ⟨e', hl⟩
  · refine Or.inl ⟨res', e', hm'.consistent, ?_, hm'.data.trans hm.data⟩
    rw [hm'.forest, hm.node.2, h1, hw.back hF hg]
  · rw [h2] at hl
    exact Or.inr ⟨e', hl⟩

/-- **C85 for MP, to another parent and back**: no guard is needed. -/
theorem C85_mp_away (hok : cfg.Ok) (h : Consistent cfg db) (ho : cfg.ordered = false) {x t : Row} (hx : x ∈ db.rows) (ht : t ∈ db.rows) {pos : Pos} (hpos : IsPlainPos pos)
    {posArg : Option Pos} (harg : posArg = some pos ∨ (posArg = none ∧ pos = .lastSibling)) (hr : ¬ (forest cfg db).MoveRefused x.pk t.pk pos)
    {res : MoveResult} (hmove : move cfg db x t posArg = .ok res) {p : Option Nat} (hp : t.pk ∈ forest cfg db p)
    {q : Option Nat} {s : Nat} {back : Pos} (hw : (forest cfg db).WasAt x.pk q s back) (haway : pos.dest p t.pk ≠ q) :
    ∃ s' ∈ res.db.rows, s'.pk = s ∧
      ((∃ res', move cfg res.db res.node s' (some back) = .ok res' ∧ Consistent cfg res'.db ∧ forest cfg res'.db = forest cfg db ∧ data res'.db.rows = data db.rows) ∨
       (move cfg res.db res.node s' (some back) = .error .pathOverflow ∧ LastTaken cfg res.db q)) := by
  have hF := isForestOn_forest hok h
  have hfit : ∀ p, t.pk ∈ forest cfg db p → MoveFits cfg db x.pk p t.pk pos := by
    intro p' hp' _ hxp
    obtain rfl := hF.good.one _ _ _ hp hp'
    exact absurd (hF.good.one _ _ _ hxp hw.mem) haway
  refine C85_mp_partial hok h ho hx ht hpos harg hr hfit hmove hw ?_
  intro p' hp' _ hxp
  obtain ⟨p0, hp0, hm⟩ := C07_move_partial hok h ho hx ht hpos harg hr
  obtain rfl := hF.good.one _ _ _ hp hp0
  rcases hm (hfit p hp) with ⟨res0, e, hm⟩ | ⟨e, _⟩
  swap
  · rw [hmove] at e; cases e
  rw [hmove, Except.ok.injEq] at e
  subst e
  have hG := isForestOn_forest hok hm.consistent
  have hg : (forest cfg res.db).remove x.pk = (forest cfg db).remove x.pk := by rw [hm.forest, Forest.remove_moveAsked]
  have h2 := (hw.parent hF hG hg hp').2
  rw [h2, hm.forest] at hxp
  -- a node is at one place only
  exfalso
  have hxt : t.pk ≠ x.pk ∨ pos.isChild = true := by
    by_contra hc
    rw [not_or, not_not] at hc
    apply haway
    unfold Pos.dest
    rw [if_neg hc.2]
    rw [hc.1] at hp
    exact hF.good.one _ _ _ hp hw.mem
  have hmv : ∃ sl, (forest cfg db).moveAsked x.pk p t.pk pos = (forest cfg db).move x.pk (pos.dest p t.pk) sl := by
    rcases hpos with (rfl | rfl | rfl | rfl) | rfl | rfl
    · exact ⟨.first, rfl⟩
    · refine ⟨.before t.pk, ?_⟩
      show (if t.pk = x.pk then _ else _) = _
      rw [if_neg (hxt.resolve_right (by decide))]; rfl
    · refine ⟨.after t.pk, ?_⟩
      show (if t.pk = x.pk then _ else _) = _
      rw [if_neg (hxt.resolve_right (by decide))]; rfl
    · exact ⟨.last, rfl⟩
    · exact ⟨.first, rfl⟩
    · exact ⟨.last, rfl⟩
  obtain ⟨sl, hsl⟩ := hmv
  rw [hsl] at hxp
  unfold Forest.move Forest.put at hxp
  rw [if_neg (Ne.symm haway)] at hxp
  exact absurd (List.mem_filter.1 hxp).2 (by simp)

/-- 3, with the child 4, goes below 5 and comes back to the right of 2 -/
example : Consistent exCfg loopDB ∧ ((move exCfg loopDB ⟨3, [49, 50], 2, 1, []⟩ ⟨5, [50], 1, 0, []⟩ (some .firstChild)).toOption.bind (fun a =>
      (a.db.get? 2).bind (fun s => (move exCfg a.db a.node s (some .right)).toOption.map (fun b => (forest exCfg a.db (some 5), forest exCfg b.db (some 1)))))) = some ([3], [2, 3, 6]) ∧
    (forest exCfg loopDB).WasAt 3 (some 1) 2 .right :=
  ⟨loopDB_consistent, by decide +kernel, .right (l := []) (r := [6]) (by decide +kernel)⟩

/-- **The way back can be closed** (violation): the roots 1 to 9 have all the positions there are.  5 goes below 1; its position is free then, but the way back to the left of 6 shifts 6 to 9
and ends with a path overflow.  To the right of 4 it finds its position. -/
theorem C85_mp_fails : ∃ db : DB, Consistent exCfg db ∧ (forest exCfg db).WasAt 5 none 6 .left ∧ (forest exCfg db).WasAt 5 none 4 .right ∧
    ∃ res s' s'', move exCfg db ⟨5, [53], 1, 0, []⟩ ⟨1, [49], 1, 0, []⟩ (some .lastChild) = .ok res ∧ s' ∈ res.db.rows ∧ s'.pk = 6 ∧ s'' ∈ res.db.rows ∧ s''.pk = 4 ∧
      move exCfg res.db res.node s' (some .left) = .error .pathOverflow ∧
      ∃ res', move exCfg res.db res.node s'' (some .right) = .ok res' ∧ forest exCfg res'.db none = forest exCfg db none := by
  refine ⟨{ rows := (List.range 9).map (fun i => ⟨i + 1, [49 + i], 1, 0, []⟩) }, ?_, .left (l := [1, 2, 3, 4]) (r := [7, 8, 9]) (by decide +kernel),
    .right (l := [1, 2, 3]) (r := [6, 7, 8, 9]) (by decide +kernel), _, ⟨6, [54], 1, 0, []⟩, ⟨4, [52], 1, 0, []⟩, rfl, by decide +kernel, rfl, by decide +kernel, rfl, rfl, _, rfl, by decide +kernel⟩
  exact ⟨by decide, by decide, by intro p; cases p <;> decide, by decide, by decide⟩

end MP

namespace LT

variable {cfg : Cfg} {db : DB}

/-- **C85 for LT** (partial: for both moves the place is the last one or the labels are such that the order is kept, as in C36). -/
theorem C85_lt_partial (h : Consistent db) (ho : cfg.ordered = false) {x t : Row} (hx : x ∈ db.rows) (ht : t ∈ db.rows) {posArg : Option Pos} {pos : Pos}
    (hprep : preparePosForMove false posArg = .ok pos) (hr : ¬ (forest db).MoveRefused x.pk t.pk pos) {p : Option Nat} (hp : t.pk ∈ forest db p)
    (hl : pos = .lastSibling ∨ pos = .lastChild ∨ TidyLabels db (pos.dest p t.pk)) {q : Option Nat} {s : Nat} {back : Pos} (hw : (forest db).WasAt x.pk q s back) :
    ∃ db' obj, move cfg db x t posArg = .ok (db', obj) ∧ ∃ s' ∈ db'.rows, s'.pk = s ∧ ∃ db'' obj', move cfg db' obj s' (some back) = .ok (db'', obj') ∧
      Consistent db'' ∧ data db''.rows = data db.rows ∧ (forest db).UpToRight (forest db'') q x.pk ∧
      (back = .lastSibling ∨ back = .lastChild ∨ TidyLabels db' q → forest db'' = forest db) := by
  have hF := isForestOn h
  obtain ⟨p0, hp0, db', obj, e, _, hm⟩ := C36_move_partial ho h hx ht hprep hr
  obtain rfl := hF.good.one _ _ _ hp hp0
  have hm := hm hl
  refine ⟨db', obj, e, ?_⟩
  have hG := isForestOn hm.consistent
  have hg : (forest db').remove x.pk = (forest db).remove x.pk := by rw [hm.forest, Forest.remove_moveAsked]
  have hs : s ∈ (data db'.rows).map Prod.fst := by
    rw [hm.data]
    exact hw.key hF (by rw [keys_eq]; exact List.mem_map_of_mem hx)
  rw [keys_eq] at hs
  obtain ⟨s', hs', rfl⟩ := List.mem_map.1 hs
  have hr' := hw.not_refused hF hG hg
  rw [← hm.obj.2] at hr'
  obtain ⟨p', hp', db'', obj', e', hn, hm'⟩ := C36_move_partial ho hm.consistent hm.obj.1 hs' hw.prep.1 hr'
  obtain ⟨h1, h2⟩ := hw.parent hF hG hg hp'
  have hnear := hn.near
  rw [hm.obj.2, h1, h2, hw.back hF hg] at hnear
  refine ⟨s', hs', rfl, db'', obj', e', hn.consistent, hn.data.trans hm.data, hnear, fun hc => ?_⟩
  rw [← h2] at hc
  rw [(hm' hc).forest, hm.obj.2, h1, hw.back hF hg]

/-- 2 goes below 5 and comes back to the left of 3 -/
example : Consistent exDB ∧ ((move ⟨[]⟩ exDB ⟨3, [[65], [66]], []⟩ ⟨5, [[66]], []⟩ (some .lastChild)).toOption.bind (fun a =>
      (a.1.get? 1).bind (fun s => (move ⟨[]⟩ a.1 a.2 s (some .lastChild)).toOption.map (fun b => (forest a.1 (some 5), forest b.1 (some 1)))))) = some ([3], [2, 3]) ∧
    (forest exDB).WasAt 3 (some 1) 1 .lastChild :=
  ⟨consistent_iff.2 exDB_inv, by decide +kernel, .lastChild (l := [2]) (by decide +kernel)⟩

/-- **The order is not restored** (violation): the roots are 4, 1, 3, 2; 2 goes to the first place and back to the last one; then they are 4, 3, 1, 2. -/
theorem C85_lt_fails : ∃ db : DB, Consistent db ∧ (forest db).WasAt 2 none 4 .lastSibling ∧ ∃ db' obj s', move ⟨[]⟩ db ⟨2, [[66]], []⟩ ⟨1, [[65]], []⟩ (some .firstSibling) = .ok (db', obj) ∧
    s' ∈ db'.rows ∧ s'.pk = 4 ∧ ∃ db'' obj', move ⟨[]⟩ db' obj s' (some .lastSibling) = .ok (db'', obj') ∧ forest db none = [4, 1, 3, 2] ∧ forest db'' none = [4, 3, 1, 2] := by
  refine ⟨⟨[⟨1, [[65]], []⟩, ⟨2, [[66]], []⟩, ⟨3, [[65, 48]], []⟩, ⟨4, [[48]], []⟩], []⟩, consistent_iff.2 (inv_of_check (by decide)), .lastSibling (l := [4, 1, 3]) (by decide) (by simp),
    _, _, ⟨4, [[48, 65]], []⟩, rfl, by decide, rfl, _, _, rfl, by decide, by decide⟩

end LT

end Verif
