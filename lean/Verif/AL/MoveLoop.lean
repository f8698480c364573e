/-
AL: moving several nodes one after the other, with objects fetched before.
-/
import Verif.Props.ALTree

namespace Verif.AL

variable {cfg : Cfg} {db db' : DB}

/-- `for node in nodes: objects.move(node, target, pos)` (al_tree.py:108-153): neither the objects `nodes` nor `target` are refreshed.  An exception ends the loop. -/
def moveLoop (cfg : Cfg) (pos : Option Pos) (t : Row) : List Row → DB → DB × Option Err
  | [], db => (db, none)
  | x :: xs, db => match move cfg db x t none pos with
    | .error e => (db, some e)
    | .ok (db', _) => moveLoop cfg pos t xs db'

/-- the same with all objects fetched anew for every move -/
def moveFresh (cfg : Cfg) (pos : Option Pos) (t : Nat) : List Nat → DB → DB × Option Err
  | [], db => (db, none)
  | k :: ks, db => match db.get? k, db.get? t with
    | some x, some t' => match move cfg db x t' none pos with
      | .error e => (db, some e)
      | .ok (db', _) => moveFresh cfg pos t ks db'
    | _, _ => (db, some .doesNotExist)

/-- alike but for the order among the siblings -/
structure Alike (a b : Row) : Prop where
  pk : a.pk = b.pk
  parent : a.parent = b.parent
  vals : a.vals = b.vals

theorem Alike.refl (a : Row) : Alike a a := ⟨rfl, rfl, rfl⟩

theorem Alike.trans {a b c : Row} (h : Alike a b) (h' : Alike b c) : Alike a c := ⟨h.pk.trans h'.pk, h.parent.trans h'.parent, h.vals.trans h'.vals⟩

theorem Alike.eq {a b : Row} (h : Alike a b) : a = { b with sib := a.sib } := by
  obtain ⟨h1, h2, h3⟩ := h
  cases a; cases b
  simp only at h1 h2 h3
  subst h1 h2 h3
  rfl

/-! ### What a move needs of the objects -/

theorem isDescendantOf_order (r x : Row) (s s' : Int) (c : Option Int) :
    isDescendantOf cfg db { r with sib := s' } { x with sib := s } c = isDescendantOf cfg db r x c := by
  have h1 : getDepth db { x with sib := s } c = getDepth db x c := rfl
  have h2 : ∀ d, treeRec cfg db none (db.rows.length + 1) (some ({ x with sib := s }, !(children cfg db { x with sib := s }).isEmpty)) d =
    treeRec cfg db none (db.rows.length + 1) (some (x, !(children cfg db x).isEmpty)) d := fun _ => rfl
  unfold isDescendantOf descendants getTree
  simp only [h1]
  cases getDepth db x c with
  | error e => rfl
  | ok d =>
    simp only [h2]
    cases treeRec cfg db none (db.rows.length + 1) (some (x, !(children cfg db x).isEmpty)) (d + 1) with
    | error e => rfl
    | ok l => rfl

theorem noMove_order (x t : Row) (s s' : Int) (pos : Pos) : noMove cfg db { x with sib := s } { t with sib := s' } pos = noMove cfg db x t pos := rfl

theorem newSibOrder_order (t : Row) (s : Int) {pos : Pos} (hl : pos ≠ .left) (hr : pos = .right → s = t.sib) :
    newSibOrder cfg db pos { t with sib := s } = newSibOrder cfg db pos t := by
  by_cases e : pos = .right
  · rw [hr e]
  · have h1 : isLastPos cfg db pos { t with sib := s } = isLastPos cfg db pos t := rfl
    have h2 : lastSibling cfg db { t with sib := s } = lastSibling cfg db t := rfl
    have h3 : makeHole db pos { t with sib := s } = makeHole db pos t := by
      cases pos <;> first | rfl | exact absurd rfl hl | exact absurd rfl e
    unfold newSibOrder
    rw [h1, h2, h3]

/-- two goals that agree but for the order of the target object -/
theorem moveTo_order (x : Row) (s : Int) (g g0 : Goal) (hs : g.pos ≠ .sortedSibling) (hpos : g.pos = g0.pos) (hso : g.sibOrder = g0.sibOrder)
    (hp : (goalParent db g).map (Option.map Row.pk) = (goalParent db g0).map (Option.map Row.pk))
    (hn : g.sibOrder = none → newSibOrder cfg db g.pos g.target = newSibOrder cfg db g0.pos g0.target) :
    (moveTo cfg db { x with sib := s } g).map Prod.fst = (moveTo cfg db x g0).map Prod.fst := by
  have ho : goalOrder cfg db { x with sib := s } g = goalOrder cfg db x g0 := by
    unfold goalOrder
    rw [← hpos, ← hso]
    cases hc : g.sibOrder with
    | some o => simp [hs]
    | none =>
      have h1 := hn hc
      rw [← hpos] at h1
      simp [hs, h1]
  unfold moveTo
  rw [ho]
  cases h1 : goalParent db g with
  | error e =>
    rw [h1] at hp
    cases h2 : goalParent db g0 with
    | error e' => rw [h2] at hp; cases hp; rfl
    | ok p' => rw [h2] at hp; cases hp
  | ok p =>
    rw [h1] at hp
    cases h2 : goalParent db g0 with
    | error e' => rw [h2] at hp; cases hp
    | ok p' =>
      rw [h2] at hp
      have hpp : p.map Row.pk = p'.map Row.pk := by injection hp
      simp only
      cases goalOrder cfg db x g0 with
      | error e => rfl
      | ok r =>
        simp only [hpp]

/-- a target object and its row: the order may differ, unless it matters -/
structure Near (pos : Pos) (a b : Row) : Prop where
  alike : Alike a b
  sib : pos = .right → a.sib = b.sib

theorem not_sorted {posArg : Option Pos} {pos : Pos} (hprep : preparePosForMove false posArg = .ok pos) : pos ≠ .sortedSibling ∧ pos ≠ .sortedChild := by
  rcases (prepMove_arg hprep).1 with (rfl | rfl | rfl | rfl) | rfl | rfl <;> simp

/-- **`move` needs of the objects only primary key, parent and values, and with `right` the order of the target.** -/
theorem move_near (ho : cfg.ordered = false) {x x0 t t0 : Row} (hx : Alike x x0) {posArg : Option Pos} {pos : Pos} (hprep : preparePosForMove false posArg = .ok pos)
    (hl : pos ≠ .left) (ht : Near pos t t0) : (move cfg db x t none posArg).map Prod.fst = (move cfg db x0 t0 none posArg).map Prod.fst := by
  obtain ⟨hs1, hs2⟩ := not_sorted hprep
  have htail : ∀ g g0 : Goal, g.pos ≠ .sortedSibling → g.pos = g0.pos → g.sibOrder = g0.sibOrder → (goalParent db g).map (Option.map Row.pk) = (goalParent db g0).map (Option.map Row.pk) →
      (g.sibOrder = none → newSibOrder cfg db g.pos g.target = newSibOrder cfg db g0.pos g0.target) → Alike g.target g0.target →
      (match isDescendantOf cfg db g.target x none with
        | .error e => .error e
        | .ok true => .error .invalidMoveToDescendant
        | .ok false => if noMove cfg db x g.target g.pos then .ok (db, x) else moveTo cfg db x g : Except Err (DB × Row)).map Prod.fst =
      (match isDescendantOf cfg db g0.target x0 none with
        | .error e => .error e
        | .ok true => .error .invalidMoveToDescendant
        | .ok false => if noMove cfg db x0 g0.target g0.pos then .ok (db, x0) else moveTo cfg db x0 g0 : Except Err (DB × Row)).map Prod.fst := by
    intro g g0 h1 h2 h3 h4 h5 h6
    have e1 : isDescendantOf cfg db g.target x none = isDescendantOf cfg db g0.target x0 none := by
      rw [h6.eq, hx.eq]; exact isDescendantOf_order ..
    have e2 : noMove cfg db x g.target g.pos = noMove cfg db x0 g0.target g0.pos := by
      rw [h6.eq, hx.eq, h2]; exact noMove_order ..
    have e3 : (moveTo cfg db x g).map Prod.fst = (moveTo cfg db x0 g0).map Prod.fst := by
      rw [hx.eq]; exact moveTo_order x0 x.sib g g0 h1 h2 h3 h4 h5
    rw [e1, e2]
    cases isDescendantOf cfg db g0.target x0 none with
    | error e => rfl
    | ok b =>
      cases b with
      | true => rfl
      | false =>
        simp only
        split
        · rfl
        · exact e3
  have hkids : children cfg db t = children cfg db t0 := by unfold children; rw [ht.alike.pk]
  unfold move
  rw [ho, hprep]
  simp only
  unfold moveGoal
  by_cases hc : isChildPos pos = true
  · simp only [hc, if_true, ht.alike.pk, hx.pk]
    by_cases h1 : (x0.pk == t0.pk) = true
    · simp only [h1, if_true]
    · simp only [h1]
      have hleaf : isLeaf cfg db t = isLeaf cfg db t0 := by unfold isLeaf; rw [hkids]
      have hlast : lastChild cfg db t = lastChild cfg db t0 := by unfold lastChild; rw [hkids]
      rw [hleaf, hlast]
      by_cases h2 : (!isLeaf cfg db t0) = true
      · simp only [h2, if_true]
        cases lastChild cfg db t0 with
        | none => rfl
        | some l =>
          refine htail ⟨l, toSibPos pos, none, none⟩ ⟨l, toSibPos pos, none, none⟩ ?_ rfl rfl rfl (fun _ => rfl) (.refl l)
          cases pos <;> simp [isChildPos, toSibPos] at hc hs2 ⊢
      · have h3 : (pos == Pos.sortedChild) = false := by simpa using hs2
        simp only [h2, h3]
        exact htail ⟨t, .firstSibling, some t, some 1⟩ ⟨t0, .firstSibling, some t0, some 1⟩ (by simp) rfl rfl (by simp [goalParent, Except.map, ht.alike.pk]) (by simp) ht.alike
  · simp only [hc]
    refine htail ⟨t, pos, none, none⟩ ⟨t0, pos, none, none⟩ hs1 rfl rfl ?_ (fun _ => ?_) ht.alike
    · unfold goalParent getParent
      simp only [ht.alike.parent]
    · rw [ht.alike.eq]
      exact newSibOrder_order t0 t.sib hl ht.sib

/-! ### What a move leaves alone -/

theorem makeHole_kept {pos : Pos} {t : Row} {o : Int} (h : makeHole db pos t = .ok (db', o)) {r : Row} (hr : r ∈ db.rows) :
    ∃ r' ∈ db'.rows, Alike r r' ∧ (pos = .right → r.sib ≤ t.sib → r'.sib = r.sib) := by
  unfold makeHole at h
  simp only at h
  split at h
  · cases h
  · rename_i sibs o' es
    cases h
    split
    · exact ⟨r, hr, .refl r, fun _ _ => rfl⟩
    · rename_i hm
      refine ⟨_, List.mem_map.2 ⟨r, hr, rfl⟩, ?_, ?_⟩
      · split <;> exact ⟨rfl, rfl, rfl⟩
      · rintro rfl hle
        cases es
        have : ¬ minSib (List.filter (fun r => decide (t.sib < r.sib)) (withParent db t.parent)) ≤ r.sib := by
          intro hle'
          unfold minSib at hm hle'
          cases hmin : (List.map Row.sib (List.filter (fun r => decide (t.sib < r.sib)) (withParent db t.parent))).min? with
          | none => rw [hmin] at hm; exact hm rfl
          | some m =>
            rw [hmin] at hle'
            obtain ⟨q, hq, e⟩ := List.mem_map.1 (List.min?_mem hmin)
            have := (List.mem_filter.1 hq).2
            simp only [decide_eq_true_eq] at this
            simp only [Option.getD_some] at hle'
            omega
        simp [this]

theorem newSibOrder_kept {pos : Pos} {t : Row} {o : Int} (h : newSibOrder cfg db pos t = .ok (db', o)) {r : Row} (hr : r ∈ db.rows) :
    ∃ r' ∈ db'.rows, Alike r r' ∧ (pos = .right → r.sib ≤ t.sib → r'.sib = r.sib) := by
  unfold newSibOrder at h
  split at h
  · split at h
    · cases h
    · cases h; exact ⟨r, hr, .refl r, fun _ _ => rfl⟩
  · exact makeHole_kept h hr

theorem save_kept {x : Row} (h : save db x = .ok db') {r : Row} (hr : r ∈ db.rows) (hne : r.pk ≠ x.pk) : r ∈ db'.rows := by
  have key : r ∈ (if db.rows.any (·.pk == x.pk) then db.rows.map (fun r => if r.pk == x.pk then x else r) else db.rows ++ [x]) := by
    split
    · exact List.mem_map.2 ⟨r, hr, by simp [hne]⟩
    · exact List.mem_append_left _ hr
  unfold save at h
  simp only at h
  generalize (if db.rows.any (·.pk == x.pk) then db.rows.map (fun r => if r.pk == x.pk then x else r) else db.rows ++ [x]) = rows at h key
  split at h
  · cases h; exact key
  · split at h
    · cases h; exact key
    · cases h

theorem moveTo_kept {x obj : Row} {g : Goal} (h : moveTo cfg db x g = .ok (db', obj)) {r : Row} (hr : r ∈ db.rows) (hne : r.pk ≠ x.pk) :
    ∃ r' ∈ db'.rows, Alike r r' ∧ (g.pos = .right → r.sib ≤ g.target.sib → r'.sib = r.sib) := by
  unfold moveTo at h
  split at h
  · cases h
  · split at h
    · cases h
    · rename_i db1 o e1
      simp only at h
      split at h
      · cases h
      · rename_i db2 e2
        cases h
        have : ∃ r' ∈ db1.rows, Alike r r' ∧ (g.pos = .right → r.sib ≤ g.target.sib → r'.sib = r.sib) := by
          unfold goalOrder at e1
          split at e1
          · cases e1; exact ⟨r, hr, .refl r, fun _ _ => rfl⟩
          · split at e1
            · cases e1; exact ⟨r, hr, .refl r, fun _ _ => rfl⟩
            · exact newSibOrder_kept e1 hr
        obtain ⟨r', hr', ha, h1⟩ := this
        exact ⟨r', save_kept e2 hr' (by rw [← ha.pk]; exact hne), ha, h1⟩

theorem move_kept {x t obj : Row} {posArg : Option Pos} {pos : Pos} (ho : cfg.ordered = false) (hprep : preparePosForMove false posArg = .ok pos)
    (h : move cfg db x t none posArg = .ok (db', obj)) {r : Row} (hr : r ∈ db.rows) (hne : r.pk ≠ x.pk) :
    ∃ r' ∈ db'.rows, Alike r r' ∧ (pos = .right → r.sib ≤ t.sib → r'.sib = r.sib) := by
  unfold move at h
  rw [ho, hprep] at h
  simp only at h
  split at h
  · cases h
  · rename_i g eg
    have hg : pos = .right → g.pos = .right ∧ g.target = t := by
      rintro rfl
      cases eg
      exact ⟨rfl, rfl⟩
    split at h
    · cases h
    · cases h
    · split at h
      · cases h; exact ⟨r, hr, .refl r, fun _ _ => rfl⟩
      · obtain ⟨r', hr', ha, h1⟩ := moveTo_kept h hr hne
        exact ⟨r', hr', ha, fun e => by obtain ⟨e1, e2⟩ := hg e; rw [e2] at h1; exact h1 e1⟩

/-- what holds before every move of the loop -/
structure LoopInv (cfg : Cfg) (pos : Pos) (db : DB) (nodes : List Row) (t t0 : Row) : Prop where
  consistent : Consistent cfg db
  stored : ∀ x ∈ nodes, ∃ r ∈ db.rows, Alike x r
  once : (nodes.map Row.pk).Nodup
  target : t0 ∈ db.rows
  near : Near pos t t0
  other : pos.isChild = false → t.pk ∉ nodes.map Row.pk

/-- one move of the loop -/
theorem LoopInv.step (ho : cfg.ordered = false) {posArg : Option Pos} {pos : Pos} (hprep : preparePosForMove false posArg = .ok pos) (hl : pos ≠ .left)
    {x t t0 : Row} {xs : List Row} (h : LoopInv cfg pos db (x :: xs) t t0) :
    ∃ x0 ∈ db.rows, x0.pk = x.pk ∧ (((forest cfg db).MoveRefused x.pk t.pk pos ∧ move cfg db x t none posArg = .error .invalidMoveToDescendant ∧
        move cfg db x0 t0 none posArg = .error .invalidMoveToDescendant) ∨
      ∃ db' obj obj0 t1 p, ¬ (forest cfg db).MoveRefused x.pk t.pk pos ∧ move cfg db x t none posArg = .ok (db', obj) ∧ move cfg db x0 t0 none posArg = .ok (db', obj0) ∧ t1.pk = t0.pk ∧
        LoopInv cfg pos db' xs t t1 ∧ t.pk ∈ forest cfg db p ∧ forest cfg db' = (forest cfg db).moveAsked x.pk p t.pk pos ∧ data db'.rows = data db.rows) := by
  obtain ⟨x0, hx0, hxa⟩ := h.stored x (List.mem_cons_self ..)
  refine ⟨x0, hx0, hxa.pk.symm, ?_⟩
  have hs := move_near (db := db) ho hxa hprep hl h.near
  rw [hxa.pk, h.near.alike.pk]
  have hi := h.consistent.inv ho
  by_cases hr : (forest cfg db).MoveRefused x0.pk t0.pk pos
  · left
    have e0 : move cfg db x0 t0 none posArg = .error .invalidMoveToDescendant := by
      rw [forest_eq hi.toAI] at hr
      exact move_refused hi.toAI hx0 (by rw [ho]; exact hprep) hr
    refine ⟨hr, ?_, e0⟩
    rw [e0] at hs
    cases e1 : move cfg db x t none posArg with
    | error e => rw [e1] at hs; cases hs; rfl
    | ok r => rw [e1] at hs; cases hs
  · right
    obtain ⟨p, hp, db', obj0, e0, hm⟩ := C31_move ho h.consistent hx0 h.target (cached := none) hprep hr
    rw [e0] at hs
    cases e1 : move cfg db x t none posArg with
    | error e => rw [e1] at hs; cases hs
    | ok r =>
      rw [e1] at hs
      obtain ⟨db1, obj⟩ := r
      have : db1 = db' := by injection hs
      subst this
      have hne : t0.pk ≠ x0.pk := by
        intro e
        cases hc : pos.isChild with
        | true => exact hr (Or.inr ⟨hc, e⟩)
        | false => exact h.other hc (by rw [h.near.alike.pk, e, ← hxa.pk]; simp)
      obtain ⟨t1, ht1, ha, hsib⟩ := move_kept ho hprep e0 h.target hne
      refine ⟨db1, obj, obj0, t1, p, hr, rfl, e0, ha.pk.symm, ⟨hm.consistent, ?_, (List.nodup_cons.1 h.once).2, ht1, ⟨h.near.alike.trans ha, ?_⟩, ?_⟩, hp, hm.forest, hm.data⟩
      · intro y hy
        obtain ⟨r, hr, ha⟩ := h.stored y (List.mem_cons_of_mem _ hy)
        have : r.pk ≠ x0.pk := by
          intro e
          rw [← hxa.pk, ← ha.pk] at e
          exact (List.nodup_cons.1 h.once).1 (e ▸ List.mem_map_of_mem hy)
        obtain ⟨r', hr', ha', _⟩ := move_kept ho hprep e0 hr this
        exact ⟨r', hr', ha.trans ha'⟩
      · intro e
        rw [h.near.sib e, hsib e (le_refl _)]
      · exact fun hc hin => h.other hc (List.mem_cons_of_mem _ hin)

/-- **The loop with the objects fetched before does the same as that with objects fetched anew.** -/
theorem moveLoop_fresh (ho : cfg.ordered = false) {posArg : Option Pos} {pos : Pos} (hprep : preparePosForMove false posArg = .ok pos) (hl : pos ≠ .left) {t : Row} :
    ∀ {xs : List Row} {t0 : Row} {db : DB}, LoopInv cfg pos db xs t t0 → moveLoop cfg posArg t xs db = moveFresh cfg posArg t0.pk (xs.map Row.pk) db := by
  intro xs
  induction xs with
  | nil => intros; rfl
  | cons x xs ih =>
    intro t0 db h
    obtain ⟨x0, hx0, hpk, hstep⟩ := h.step ho hprep hl
    have hi := (h.consistent.inv ho).toAI
    have e1 : db.get? x.pk = some x0 := (get?_eq_some hi).2 ⟨hx0, hpk⟩
    have e2 : db.get? t0.pk = some t0 := (get?_eq_some hi).2 ⟨h.target, rfl⟩
    rw [List.map_cons]
    unfold moveLoop moveFresh
    rw [e1, e2]
    rcases hstep with ⟨_, h1, h2⟩ | ⟨db', obj, obj0, t1, p, _, h1, h2, h3, h4, _⟩
    · simp only [h1, h2]
    · simp only [h1, h2]
      rw [← h3]
      exact ih h4

end Verif.AL
