/-
C60: sorted moves whatever the stored values.
-/
import Verif.MP.SortedMoveAny
import Verif.Props.SortedAny
import Verif.Props.MPMove

namespace Verif

/-! ### MP -/

namespace MP

variable {cfg : Cfg} {db : DB}

/-- What a sorted move below `p` gives: the node, with its branch, immediately before the first of the other children of `p` that comes
after it and nothing else changed; or an error, PathOverflow only if there is no room, IntegrityError only if the others are out of order. -/
def AnyMove (cfg : Cfg) (db : DB) (x : Row) (p : Option Nat) (out : Except Err MoveResult) : Prop :=
  (∃ res s, out = .ok res ∧ MovedTo cfg db res x ((forest cfg db).move x.pk p s) ∧
    FirstBehind cfg.orderBy (valsOf db) x.vals ((forest cfg db).remove x.pk p) s) ∨
  (out = .error .pathOverflow ∧ LastTaken cfg db p) ∨
  (out = .error .integrity ∧ OutOfOrder cfg.orderBy (valsOf db) x.vals ((forest cfg db).remove x.pk p))

/-- The guard: if a sibling that comes after the node stands before it, there is room for the temporary place. -/
def AnyFits (cfg : Cfg) (db : DB) (x : Row) (p : Option Nat) : Prop :=
  (∃ z, Stands (forest cfg db p) z x.pk ∧ Behind cfg.orderBy x.vals (valsOf db z)) → TempFits cfg db x.pk p

theorem anyRoom_of (hok : cfg.Ok) (h : Inv cfg db.rows) {x : Row} (hx : x ∈ db.rows) {P : List Nat} (hP : IsPar db.rows P)
    (hfit : AnyFits cfg db x (at? db.rows P)) : AnyRoom cfg db.rows x P := by
  have hmem : ∀ r ∈ db.rows, pp cfg.steplen r.path = P → r.pk ∈ forest cfg db (at? db.rows P) := by
    intro r hr e
    rw [forest_eq h hok, mem_PF h.toPInv]
    exact ⟨r, hr, (par_eq_at h.toPInv hok hr hP).2 e, rfl⟩
  rintro hxp ⟨z, hz, hzp, hlt, hb⟩ r hr hrp n hn hcap
  refine hfit ⟨z.pk, stands_of hok h hz hx hP hzp hxp hlt, ?_⟩ (hmem x hx hxp) r hr (hmem r hr hrp) n (by rw [hn]; exact lastpos_eq hok _ hcap)
  rw [valsOf_row h.toPInv.inv hz]
  exact hb

/-- **C60 for MP** (partial: IntegrityError if the others are out of order, see `C60_mp_edited`; the guard `AnyFits`, because the code
overwrites the tree silently without it, see `C60_mp_corrupts`). -/
theorem C60_mp_move_partial (hok : cfg.Ok) (h : Consistent cfg db) (ho : cfg.ordered = true) {x t : Row} (hx : x ∈ db.rows)
    (ht : t ∈ db.rows) {pos : Pos} {posArg : Option Pos} (hprep : preparePosForMove true posArg = .ok pos)
    (hin : ¬ (forest cfg db).MoveRefused x.pk t.pk pos) :
    ∃ p, t.pk ∈ forest cfg db p ∧ (AnyFits cfg db x (pos.dest p t.pk) → AnyMove cfg db x (pos.dest p t.pk) (move cfg db x t posArg)) := by
  have h := (consistent_iff hok).1 h
  have hP := destPath_isPar (cfg := cfg) h ht pos
  refine ⟨par cfg db.rows t, mem_forest_par hok h ht, ?_⟩
  intro hfit
  have hd : destPar (par cfg db.rows t) t.pk pos = pos.dest (par cfg db.rows t) t.pk := by
    unfold destPar Pos.dest; rw [isChildPos_eq]
  rw [← at?_dest h ht pos] at hfit
  rcases move_any hok h ho hx ht hprep (anyRoom_of hok h hx hP hfit) with ⟨hr, _⟩ | ⟨_, l, hl, hm, ha⟩
  · exact absurd ((refused_iff hok h hx ht pos).1 hr) hin
  rw [hd] at hm ha
  have hv : ∀ r ∈ l, valsOf db r.pk = r.vals := fun r hr => valsOf_row h.inv (hl r hr)
  unfold AnyMove
  rw [forest_eq h hok, ← hm]
  rcases ha with ⟨s, hs, ⟨res, e, hg⟩ | ⟨e, hu⟩⟩ | ⟨e, l₁, a, b, l₂, rfl, h1, h2⟩
  · exact Or.inl ⟨res, s, e, MovedTo.of hok hg, hs.firstBehind hv⟩
  · have := lastTaken_of hok h hP hu
    rw [at?_dest h ht pos] at this
    exact Or.inr (Or.inl ⟨e, this⟩)
  · refine Or.inr (Or.inr ⟨e, l₁.map Row.pk, a.pk, b.pk, l₂.map Row.pk, by simp, ?_, ?_⟩)
    · rw [hv a (by simp)]; exact h1
    · rw [hv b (by simp)]; exact h2

/-- hypotheses and outcomes: siblings out of order and null values; a node without values goes to the first place -/
example : let db : DB := { rows := [⟨1, [49], 1, 2, [some 5]⟩, ⟨2, [49, 49], 2, 0, [some 2]⟩, ⟨3, [49, 51], 2, 0, [none]⟩, ⟨4, [51], 1, 0, [some 1]⟩,
      ⟨5, [52], 1, 0, [none]⟩] }
    Consistent exAny db ∧
    (∃ res, move exAny db ⟨2, [49, 49], 2, 0, [some 2]⟩ ⟨4, [51], 1, 0, [some 1]⟩ none = .ok res ∧ forest exAny res.db none = [2, 1, 4, 5]) ∧
    (∃ res, move exAny db ⟨5, [52], 1, 0, [none]⟩ ⟨4, [51], 1, 0, [some 1]⟩ none = .ok res ∧ forest exAny res.db none = [5, 1, 4]) ∧
    (∃ res, move exAny db ⟨4, [51], 1, 0, [some 1]⟩ ⟨1, [49], 1, 2, [some 5]⟩ (some .sortedChild) = .ok res ∧ forest exAny res.db (some 1) = [4, 2, 3]) :=
  ⟨⟨by decide, by decide, by intro p; cases p <;> decide, by decide, by decide⟩, ⟨_, rfl, by decide⟩, ⟨_, rfl, by decide⟩, ⟨_, rfl, by decide⟩⟩

/-- **C60 is false for MP.** The first of two roots was edited, its value is 5 now; its child with the value 3 cannot be moved to the
roots. -/
theorem C60_mp_edited : ∃ db x t, exAny.Ok ∧ Consistent exAny db ∧ x ∈ db.rows ∧ t ∈ db.rows ∧ AllNonNull exAny db ∧
    ¬ (forest exAny db).MoveRefused x.pk t.pk .sortedSibling ∧ AnyFits exAny db x none ∧ ¬ LastTaken exAny db none ∧
    move exAny db x t (some .sortedSibling) = .error .integrity := by
  refine ⟨{ rows := [⟨1, [49], 1, 1, [some 5]⟩, ⟨3, [49, 49], 2, 0, [some 3]⟩, ⟨2, [50], 1, 0, [some 1]⟩] }, ⟨3, [49, 49], 2, 0, [some 3]⟩,
    ⟨2, [50], 1, 0, [some 1]⟩, ⟨by decide, by decide, by decide⟩,
    ⟨by decide, by decide, by intro p; cases p <;> decide, by decide, by decide⟩, by decide, by decide, ?_, ?_, ?_, ?_, rfl⟩
  · intro r hr e he
    simp only [List.mem_cons, List.not_mem_nil, or_false] at hr
    simp only [exAny, List.mem_cons, List.not_mem_nil, or_false] at he
    rcases hr with rfl | rfl | rfl <;> subst he <;> exact ⟨_, rfl⟩
  · rw [← refused_iff (cfg := exAny) (x := ⟨3, [49, 49], 2, 0, [some 3]⟩) (t := ⟨2, [50], 1, 0, [some 1]⟩) ⟨by decide, by decide, by decide⟩
      ((consistent_iff ⟨by decide, by decide, by decide⟩).1 ⟨by decide, by decide, by intro p; cases p <;> decide, by decide, by decide⟩)
      (by decide) (by decide)]
    unfold Refused; decide
  · intro _ h
    exact absurd h (by decide)
  · unfold LastTaken; decide

/-- **C60 is false for MP**: without room for the temporary place the tree is overwritten silently.  The last of the roots was edited,
its value is 1 now; moving it to its sorted place makes it a child of another root, and a table that is not consistent. -/
theorem C60_mp_corrupts : ∃ db x res, exAny.Ok ∧ Consistent exAny db ∧ x ∈ db.rows ∧ AllNonNull exAny db ∧
    ((forest exAny db).remove x.pk).SortedBy exAny.orderBy (valsOf db) ∧
    move exAny db x x (some .sortedSibling) = .ok res ∧ ¬ Consistent exAny res.db ∧ x.pk ∉ forest exAny res.db none := by
  refine ⟨{ rows := [⟨1, [49], 1, 0, [some 5]⟩, ⟨2, [57], 1, 0, [some 1]⟩] }, ⟨2, [57], 1, 0, [some 1]⟩, _, ⟨by decide, by decide, by decide⟩,
    ⟨by decide, by decide, by intro p; cases p <;> decide, by decide, by decide⟩, by decide, ?_, ?_, rfl, ?_, by decide⟩
  · intro r hr e he
    simp only [List.mem_cons, List.not_mem_nil, or_false] at hr
    simp only [exAny, List.mem_cons, List.not_mem_nil, or_false] at he
    rcases hr with rfl | rfl <;> subst he <;> exact ⟨_, rfl⟩
  · refine sortedBy_of_keys [1, 2] ?_ (by decide)
    intro k hk
    simp only [List.mem_cons, List.not_mem_nil, or_false, not_or] at hk
    unfold Forest.remove forest
    have : DB.get? ({ rows := [⟨1, [49], 1, 0, [some 5]⟩, ⟨2, [57], 1, 0, [some 1]⟩] } : DB) k = none := by
      rw [get?_eq_none]
      intro r hr
      simp only [List.mem_cons, List.not_mem_nil, or_false] at hr
      rcases hr with rfl | rfl
      · exact fun e => hk.1 e.symm
      · exact fun e => hk.2 e.symm
    simp only [this]
    rfl
  · rintro ⟨_, _, h3, _, _⟩
    exact absurd (h3 .wrongNumchild) (by decide)

end MP

/-! ### NS -/

namespace NS

variable {cfg : Cfg} {db : DB}

/-- **C60 for NS** -/
theorem C60_ns_move (h : Consistent db) (ho : cfg.ordered = true) {x t : Row} (hx : x ∈ db.rows) (ht : t ∈ db.rows)
    {cached : Option Row} {posArg : Option Pos} {pos : Pos} (hpos : preparePosForMove true posArg = .ok pos)
    (hr : ¬ (forest db).MoveRefused x.pk t.pk pos) :
    ∃ p, t.pk ∈ forest db p ∧ ∃ res s, move cfg db x t cached posArg = .ok res ∧
      MovedTo db res x t ((forest db).move x.pk (pos.dest p t.pk) s) ∧
      FirstBehind cfg.orderBy (valsIn (data db.rows)) x.vals ((forest db).remove x.pk (pos.dest p t.pk)) s := by
  obtain ⟨res, s, l, e, hm, hlt, hml, hc⟩ := move_sorted h ho hx ht (cached := cached) hpos (fun hr' => hr ((refused_iff h hx ht pos).1 hr'))
  have hp : l.map Row.pk = PF db.rows (pos.dest (par db.rows t) t.pk) := list_PF h.toNI hlt hml
  have hpk : ∀ r ∈ l, r.pk = x.pk → r = x := fun r hr e => h.toNI.pk_inj ((hml r).1 hr).1 hx e
  obtain ⟨s', hs, hins⟩ := firstBehind_others (ob := cfg.orderBy) (vals := Row.vals) (pk := Row.pk) (v := valsIn (data db.rows)) (l := l) (new := x.vals)
    (x := x.pk) (s := s) (fun r hr => valsIn_mem (keys_nodup h) (List.mem_map.2 ⟨r, ((hml r).1 hr).1, rfl⟩))
    (fun r hr e => by rw [hpk r hr e]) (by
      rcases hc with ⟨z, hz, h1, h2, h3⟩ | hc
      · refine Or.inl ⟨z, h1, fun hne => h2 (fun e => hne (by rw [e])), fun ez hl => h3 (hpk z hz ez) ?_⟩
        intro r hr
        rw [← hpk z hz ez]
        cases l with
        | nil => cases hl
        | cons y ys =>
          simp only [List.head?_cons, Option.some.injEq] at hl
          subst hl
          rcases List.mem_cons.1 hr with rfl | hr
          · exact lt_irrefl _
          · exact lt_asymm ((List.pairwise_cons.1 hlt).1 r hr)
      · exact Or.inr hc)
  rw [hp] at hs hins
  refine ⟨_, (mem_forest h ht).2 rfl, res, s', e, ?_, ?_⟩
  · rw [forest_eq h.toNI, Forest.move_congr hins]; exact .of hm
  · rw [forest_eq h.toNI]; exact hs

/-- the case where MP fails, and a node without values -/
example : let db : DB := { rows := [⟨1, 1, 1, 4, 1, [some 5]⟩, ⟨3, 1, 2, 3, 2, [some 3]⟩, ⟨2, 2, 1, 2, 1, [some 1]⟩, ⟨4, 3, 1, 2, 1, [none]⟩] }
    ((move exSorted db ⟨3, 1, 2, 3, 2, [some 3]⟩ ⟨2, 2, 1, 2, 1, [some 1]⟩ none none).toOption.map (fun x => forest x.db none)) = some [3, 1, 2, 4] ∧
    ((move exSorted db ⟨4, 3, 1, 2, 1, [none]⟩ ⟨2, 2, 1, 2, 1, [some 1]⟩ none none).toOption.map (fun x => forest x.db none)) = some [4, 1, 2] := by decide

end NS

/-! ### AL -/

namespace AL

variable {cfg : Cfg} {db : DB}

/-- **C60 for AL**: the order of siblings is not stored, so the row gets its new parent and no other row changes. -/
theorem C60_al_move (ho : cfg.ordered = true) (h : Wf cfg db) {x t : Row} (hx : x ∈ db.rows) (ht : t ∈ db.rows)
    {cached : Option Int} {posArg : Option Pos} {pos : Pos} (hpos : preparePosForMove true posArg = .ok pos)
    (hr : ¬ (forest cfg db).MoveRefused x.pk t.pk pos) :
    ∃ p, t.pk ∈ forest cfg db p ∧ ∃ db' obj, move cfg db x t cached posArg = .ok (db', obj) ∧ Wf cfg db' ∧
      db'.rows = db.rows.map (fun r => if r.pk = x.pk then { x with parent := pos.dest p t.pk } else r) ∧ obj = { x with parent := pos.dest p t.pk } := by
  obtain ⟨p, hp, db', obj, e, hm⟩ := C16_al_move_partial ho h hx ht (cached := cached) hpos hr
  exact ⟨p, hp, db', obj, e, hm.wf, hm.rows, hm.obj.1⟩

end AL

/-! ### LT -/

namespace LT

variable {cfg : Cfg} {db : DB}

/-- What a sorted move below `p` gives: if some child of `p` comes after the node, the node immediately before the first other such one, the
others perhaps in another order (not if the labels are tidy); if none does, the node at some place (at the end if its label is the last
one), or ValueError if all the labels it tries are in use. -/
def AnyMove (cfg : Cfg) (db : DB) (x : Row) (p : Option Nat) (out : Except Err (DB × Row)) : Prop :=
  (∃ s db' obj, FirstBehind cfg.orderBy (valsIn (data db.rows)) x.vals ((forest db).remove x.pk p) s ∧ out = .ok (db', obj) ∧
    MovedNear db db' obj x ((forest db).move x.pk p s) p ∧ (TidyLabels db p → MovedTo db db' obj x ((forest db).move x.pk p s))) ∨
  ((∀ a ∈ forest db p, ¬ Behind cfg.orderBy x.vals (valsIn (data db.rows) a)) ∧
    ((∃ db' obj s, out = .ok (db', obj) ∧ MovedTo db db' obj x ((forest db).move x.pk p s) ∧
      ((∀ r ∈ db.rows, r.pk ∈ forest db p → r.path < obj.path) → s = .last)) ∨
     (out = .error .valueError ∧ Full db p)))

theorem anyMove_of (h : Consistent db) {x : Row} (hx : x ∈ db.rows) {pre : Path} {S : List Row} (hS : Lists db.rows pre S) (hpar : IsPar db.rows pre)
    {out : Except Err (DB × Row)} (ha : SortedMove cfg db S pre x (at? db.rows pre) out) :
    AnyMove cfg db x (at? db.rows pre) out := by
  have hi := h.inv
  have hm := lists_PF hi.inv hS hpar
  have hv : ∀ r ∈ S, valsIn (data db.rows) r.pk = r.vals := fun r hr =>
    valsIn_mem (by rw [keys_eq]; exact h.pks) (List.mem_map.2 ⟨r, ((hS.mem r).1 hr).1, rfl⟩)
  have hpk : ∀ r ∈ S, r.pk = x.pk → r = x := fun r hr e => hi.inv.pk_inj ((hS.mem r).1 hr).1 hx e
  rcases ha with ⟨b, hb, s, db', obj, e, ha, hs1, hs2⟩ | ⟨hb, hrest⟩
  · obtain ⟨s', hs, hins⟩ := firstBehind_others (ob := cfg.orderBy) (vals := Row.vals) (pk := Row.pk) (v := valsIn (data db.rows)) (l := S)
      (new := x.vals) (x := x.pk) (s := s) hv (fun r hr e => by rw [hpk r hr e]) (by
        refine Or.inl ⟨b, hb, fun hne => hs1 (fun e => hne (by rw [e])), fun ez hl => hs2 (hpk b (firstGreater_mem hb) ez) ?_⟩
        intro r hr
        rw [← hpk b (firstGreater_mem hb) ez]
        cases S with
        | nil => cases hl
        | cons y ys =>
          simp only [List.head?_cons, Option.some.injEq] at hl
          subst hl
          rcases List.mem_cons.1 hr with rfl | hr
          · exact plt_irrefl _
          · exact plt_asymm ((List.pairwise_cons.1 hS.sorted).1 r hr))
    rw [hm] at hs hins
    rw [← forest_eq hi.inv, ← Forest.move_congr hins] at ha
    exact Or.inl ⟨s', db', obj, hs, e, .of ha, fun ht => .of ha (keepsOrder_of hi.inv hpar ht)⟩
  · right
    refine ⟨?_, ?_⟩
    · intro a ha hbeh
      rw [← hm] at ha
      obtain ⟨r, hr, rfl⟩ := List.mem_map.1 ha
      rw [hv r hr] at hbeh
      have := (mem_behind (ob := cfg.orderBy) (vals := Row.vals) (l := S) (new := x.vals) r).2 ⟨hr, hbeh⟩
      have hnil : sortedPosQueryset cfg.orderBy Row.vals S x.vals = [] := by
        unfold firstGreater at hb
        simpa using hb
      rw [hnil] at this
      cases this
    · rcases hrest with ⟨db', l, s, e, ha, hl⟩ | ⟨e, hu⟩
      · rw [← forest_eq hi.inv] at ha
        refine Or.inl ⟨db', _, s, e, .of ha trivial, ?_⟩
        intro hlt
        refine hl ?_
        intro r hr hd
        have h1 := hlt r hr ((mem_forest hi.inv hr).2 ((par_iff hi.inv hpar hr).2 hd))
        rw [path_split hi.inv hr] at h1
        exact (label_lt hd).1 h1
      · exact Or.inr ⟨e, full_of hi.inv hpar hu⟩

/-- **C60 for LT** (partial: the order of the siblings, as for C48). -/
theorem C60_lt_move_partial (ho : cfg.ordered = true) (h : Consistent db) {x t : Row} (hx : x ∈ db.rows) (ht : t ∈ db.rows)
    {posArg : Option Pos} {pos : Pos} (hpos : preparePosForMove true posArg = .ok pos)
    (hr : ¬ (forest db).MoveRefused x.pk t.pk pos) :
    ∃ p, t.pk ∈ forest db p ∧ AnyMove cfg db x (pos.dest p t.pk) (move cfg db x t posArg) := by
  have hi := h.inv
  refine ⟨_, (mem_forest hi.inv ht).2 rfl, ?_⟩
  rw [forest_eq hi.inv] at hr
  have hm := move_sorted ho hi hx ht hpos hr
  rw [← dest_eq hi.inv ht pos] at hm ⊢
  refine anyMove_of h hx ?_ ?_ hm
  · split
    · exact lists_children hi.inv t
    · exact lists_siblings hi.inv ht
  · split
    · exact Or.inr ⟨t, ht, rfl⟩
    · exact IsPar.drop hi.inv ht

/-- the case where MP fails, and a node without values -/
example : let db : DB := { rows := [⟨1, [[66]], [some 5]⟩, ⟨3, [[66], [65]], [some 3]⟩, ⟨2, [[67]], [some 1]⟩, ⟨4, [[68]], [none]⟩] }
    Consistent db ∧
    ((move exSorted db ⟨3, [[66], [65]], [some 3]⟩ ⟨2, [[67]], [some 1]⟩ none).toOption.map (fun x => forest x.1 none)) = some [3, 1, 2, 4] ∧
    ((move exSorted db ⟨4, [[68]], [none]⟩ ⟨2, [[67]], [some 1]⟩ none).toOption.map (fun x => forest x.1 none)) = some [4, 1, 2] :=
  ⟨consistent_iff.2 (inv_of_check (by decide)), by decide, by decide⟩

end LT

end Verif
