/-
LT: moving several nodes one after the other, with objects fetched before.
-/
import Verif.Props.LTTree

namespace Verif.LT

variable {cfg : Cfg} {db db' : DB}

/-- `for node in nodes: objects.move(node, target, pos)` (ltree/__init__.py:266-334): the objects `nodes` are those fetched before, and `target` is the object as the moves leave it.
An exception ends the loop. -/
def moveLoop (cfg : Cfg) (pos : Option Pos) : List Row → Row → DB → DB × Option Err
  | [], _, db => (db, none)
  | x :: xs, t, db => match moveObj cfg db x t pos with
    | .error e => (db, some e)
    | .ok (db', _, t') => moveLoop cfg pos xs t' db'

/-- the same with all objects fetched anew for every move -/
def moveFresh (cfg : Cfg) (pos : Option Pos) (t : Nat) : List Nat → DB → DB × Option Err
  | [], db => (db, none)
  | k :: ks, db => match db.get? k, db.get? t with
    | some x, some t' => match move cfg db x t' pos with
      | .error e => (db, some e)
      | .ok (db', _) => moveFresh cfg pos t ks db'
    | _, _ => (db, some .doesNotExist)

/-- the positions at the end of a group of siblings: nothing is shifted for them -/
def ToEnd (pos : Pos) : Prop := pos = .lastSibling ∨ pos = .lastChild

/-- the path of the new parent -/
def destPath (pos : Pos) (t : Row) : Path := if isChildPos pos then t.path else t.path.dropLast

/-- the path `p` is properly below `P` -/
def Under (P p : Path) : Prop := P <+: p ∧ P.length < p.length

/-- A target object that is as good as the stored row: for the ends of the group of its siblings the last label of its path does not matter. -/
structure Near (pos : Pos) (t t0 : Row) : Prop where
  pk : t.pk = t0.pk
  same : t = t0 ∨ ((pos = .firstSibling ∨ pos = .lastSibling) ∧ t.path.dropLast = t0.path.dropLast ∧ t.path.length = t0.path.length)

theorem Near.refl (pos : Pos) (t : Row) : Near pos t t := ⟨rfl, Or.inl rfl⟩

theorem isDescendantOf_drop {a b x : Row} (hd : a.path.dropLast = b.path.dropLast) (hl : a.path.length = b.path.length) : a.isDescendantOf x = b.isDescendantOf x := by
  have key : ∀ {a b : Row}, a.path.dropLast = b.path.dropLast → a.path.length = b.path.length → a.isDescendantOf x = true → b.isDescendantOf x = true := by
    intro a b hd hl h
    unfold Row.isDescendantOf at h ⊢
    simp only [Bool.and_eq_true, decide_eq_true_eq, List.isPrefixOf_iff_prefix] at h ⊢
    refine ⟨by rw [← hl]; exact h.1, ?_⟩
    have h1 : x.path <+: a.path.dropLast := by
      rw [List.dropLast_eq_take]
      exact List.prefix_take_iff.2 ⟨h.2, by omega⟩
    rw [hd] at h1
    exact h1.trans (List.dropLast_prefix _)
  rw [Bool.eq_iff_iff]
  exact ⟨key hd hl, key hd.symm hl.symm⟩

/-- The move with such an object does the same. -/
theorem moveObj_near {x t t0 : Row} {posArg : Option Pos} {pos : Pos} (hpos : preparePosForMove cfg.ordered posArg = .ok pos) (hn : Near pos t t0) :
    (moveObj cfg db x t posArg).map (fun r => (r.1, r.2.1)) = move cfg db x t0 posArg ∧
      ((pos = .firstSibling ∨ pos = .lastSibling) → ∀ r, moveObj cfg db x t posArg = .ok r → r.2.2 = t) := by
  have hlast : (pos = .firstSibling ∨ pos = .lastSibling) → ∀ r, moveObj cfg db x t posArg = .ok r → r.2.2 = t := by
    intro hp r hr
    unfold moveObj at hr
    rw [hpos] at hr
    simp only at hr
    split at hr
    · cases hr
    · split at hr
      · cases hr
      · split at hr
        · cases hr
        · split at hr
          · cases hr
          · unfold commit at hr
            simp only at hr
            split at hr
            · cases hr
              unfold targetObj
              rw [if_neg]
              rcases hp with rfl | rfl <;> decide
            · cases hr
  refine ⟨?_, hlast⟩
  rw [moveObj_move]
  rcases hn.same with rfl | ⟨hp, hd, hl⟩
  · rfl
  · unfold move
    rw [hpos]
    simp only
    rw [hn.pk, isDescendantOf_drop hd hl]
    have : moveNeighbours cfg db x t pos = moveNeighbours cfg db x t0 pos := by
      have hs := siblings_congr (db := db) hd hl
      rcases hp with rfl | rfl <;> simp only [moveNeighbours, hs, hd]
    rw [this]

/-! ### What a move leaves alone -/

theorem gRow_outside {moved : Bool} {pre : Path} {before : Option Row} {r : Row} (h : ¬ Under pre r.path) : gRow moved pre before r = r := by
  cases moved with
  | false => rfl
  | true =>
    unfold gRow shRow
    rw [if_pos rfl, sh_kept]
    intro l u e
    exact absurd ⟨⟨_, e.symm⟩, by rw [e]; simp⟩ h

/-- **What a move keeps**: rows not below the moved node, and not below its new parent unless the place is the last one. -/
theorem move_kept (ho : cfg.ordered = false) (h : Inv db.rows) {x t : Row} (hx : x ∈ db.rows) (ht : t ∈ db.rows) {posArg : Option Pos} {pos : Pos}
    (hpos : preparePosForMove false posArg = .ok pos) (hr : ¬ (PF db.rows).MoveRefused x.pk t.pk pos) {obj : Row} (e : move cfg db x t posArg = .ok (db', obj)) :
    (∀ r ∈ db.rows, ¬ x.path <+: r.path → ∃ r' ∈ db'.rows, r'.pk = r.pk ∧ r'.path.length = r.path.length ∧ (r.path.dropLast = destPath pos t → r'.path.dropLast = destPath pos t) ∧
      ((ToEnd pos ∨ ¬ Under (destPath pos t) r.path) → r' = r)) ∧ obj.path.dropLast = destPath pos t ∧ obj.path.length = (destPath pos t).length + 1 := by
  obtain ⟨hplain, _⟩ := prepMove_arg hpos
  rw [← ho] at hpos
  obtain ⟨he, hin⟩ := move_eq h hx ht hpos hr
  obtain ⟨s, hpre, hn, hs, hA, hlast⟩ := moveNeighbours_plain (cfg := cfg) h.inv hx ht hplain
  obtain ⟨db1, l, moved, hg, hp, hw⟩ := getNewPath_spec h hn
  rw [he] at e
  simp only [hg, refreshed_eq h hp hx] at e
  have hcommit : (finishMove db1 (gRow moved (moveNeighbours cfg db x t pos).2 (moveNeighbours cfg db x t pos).1.1 x) ((moveNeighbours cfg db x t pos).2 ++ [l])) = (db', obj) := by
    unfold commit at e
    simp only at e
    split at e
    · exact Except.ok.inj e
    · cases e
  have hdp : destPath pos t = (moveNeighbours cfg db x t pos).2 := hpre.symm
  constructor
  · intro r hr hxr
    have hmem := moved_other h hp hx hr hxr ((moveNeighbours cfg db x t pos).2 ++ [l])
    rw [hcommit] at hmem
    refine ⟨_, hmem, gRow_pk r, ?_, ?_, ?_⟩
    · rw [gRow_path, (gMap (moved := moved)).len]
    · rw [gRow_path, hdp]; exact (gPath_drop _).2
    · rintro (hE | hU)
      · have : moved = false := by
          cases hm : moved with
          | false => rfl
          | true =>
            obtain ⟨b, hb⟩ := hp.gap hm
            rw [hlast hE] at hb
            cases hb
        rw [this]; rfl
      · rw [hdp] at hU
        exact gRow_outside hU
  · have : obj.path = (moveNeighbours cfg db x t pos).2 ++ [l] := by
      have := congrArg (fun r => r.2.path) hcommit
      exact this.symm
    rw [this, hdp]
    simp

/-- what holds before every move of the loop: `t` is the target object, `t0` its row -/
structure LoopInv (pos : Pos) (db : DB) (nodes : List Row) (t t0 : Row) : Prop where
  consistent : Consistent db
  stored : ∀ x ∈ nodes, x ∈ db.rows
  apart : nodes.Pairwise (fun a b => ¬ a.path <+: b.path)
  target : t0 ∈ db.rows
  near : Near pos t t0
  out : ToEnd pos ∨ ∀ x ∈ nodes, ¬ Under (destPath pos t0) x.path

theorem under_drop (h : PI db.rows) {r : Row} (hr : r ∈ db.rows) : Under r.path.dropLast r.path ∧ r.path.length = r.path.dropLast.length + 1 := by
  have hl : r.path.length = r.path.dropLast.length + 1 := by
    have := congrArg List.length (path_split h hr)
    simpa using this
  exact ⟨⟨List.dropLast_prefix _, by omega⟩, hl⟩

/-- one move of the loop -/
theorem LoopInv.step (ho : cfg.ordered = false) {posArg : Option Pos} {pos : Pos} (hpos : preparePosForMove false posArg = .ok pos) {x t t0 : Row} {xs : List Row}
    (h : LoopInv pos db (x :: xs) t t0) :
    ((forest db).MoveRefused x.pk t0.pk pos ∧ moveObj cfg db x t posArg = .error .invalidMoveToDescendant ∧ move cfg db x t0 posArg = .error .invalidMoveToDescendant) ∨
      ∃ db' obj t' t1 p, ¬ (forest db).MoveRefused x.pk t0.pk pos ∧ moveObj cfg db x t posArg = .ok (db', obj, t') ∧ move cfg db x t0 posArg = .ok (db', obj) ∧ t1.pk = t0.pk ∧
        LoopInv pos db' xs t' t1 ∧ t0.pk ∈ forest db p ∧ MovedNear db db' obj x ((forest db).moveAsked x.pk p t0.pk pos) (pos.dest p t0.pk) ∧
        (ToEnd pos → forest db' = (forest db).moveAsked x.pk p t0.pk pos) := by
  have hx := h.stored x (List.mem_cons_self ..)
  have hi := h.consistent.inv
  have hpos' : preparePosForMove cfg.ordered posArg = .ok pos := by rw [ho]; exact hpos
  obtain ⟨hsame, hobj⟩ := moveObj_near (db := db) (x := x) hpos' h.near
  by_cases hr : (forest db).MoveRefused x.pk t0.pk pos
  · left
    have e : move cfg db x t0 posArg = .error .invalidMoveToDescendant := by
      rw [forest_eq hi.inv] at hr
      exact move_refused hi.inv hx h.target hpos' hr
    refine ⟨hr, ?_, e⟩
    rw [e] at hsame
    cases e1 : moveObj cfg db x t posArg with
    | error e => rw [e1] at hsame; cases hsame; rfl
    | ok r => rw [e1] at hsame; cases hsame
  · right
    obtain ⟨p, hp, db', obj, e, hm, hend⟩ := C36_move_partial ho h.consistent hx h.target hpos hr
    rw [e] at hsame
    have hr' := hr
    rw [forest_eq hi.inv] at hr'
    obtain ⟨hkept, hop, hol⟩ := move_kept ho hi hx h.target hpos hr' e
    cases e1 : moveObj cfg db x t posArg with
    | error e => rw [e1] at hsame; cases hsame
    | ok r =>
      rw [e1] at hsame
      obtain ⟨d, o, t'⟩ := r
      have hd : d = db' ∧ o = obj := by
        have := Except.ok.inj hsame
        exact ⟨congrArg Prod.fst this, congrArg Prod.snd this⟩
      obtain ⟨rfl, rfl⟩ := hd
      have hstored : ∀ y ∈ xs, y ∈ d.rows := by
        intro y hy
        obtain ⟨r', hr1, _, _, _, h5⟩ := hkept y (h.stored y (List.mem_cons_of_mem _ hy)) ((List.pairwise_cons.1 h.apart).1 y hy)
        rw [← h5 (h.out.imp id (fun h' => h' y (List.mem_cons_of_mem _ hy)))]
        exact hr1
      -- the row of the target afterwards
      have htarget : ∃ t1 ∈ d.rows, t1.pk = t0.pk ∧ Near pos t' t1 ∧ destPath pos t1 = destPath pos t0 := by
        obtain ⟨hund, hlen⟩ := under_drop hi.inv h.target
        have hnd : t.path.dropLast = t0.path.dropLast ∧ t.path.length = t0.path.length := by
          rcases h.near.same with e2 | ⟨_, e2⟩
          · rw [e2]; exact ⟨rfl, rfl⟩
          · exact e2
        by_cases hxt : x = t0
        · subst hxt
          have hc : isChildPos pos = false := by
            rw [isChildPos_eq]
            by_contra hc
            exact hr (Or.inr ⟨by simpa using hc, rfl⟩)
          have hdp : destPath pos x = x.path.dropLast := by unfold destPath; rw [hc]; rfl
          have hl : pos = .lastSibling := by
            rcases h.out with (h1 | h1) | h1
            · exact h1
            · rw [h1] at hc; cases hc
            · exact absurd (hdp ▸ hund) (h1 x (List.mem_cons_self ..))
          have ht' : t' = t := hobj (Or.inr hl) _ e1
          rw [hdp] at hop hol
          refine ⟨o, hm.obj.1, hm.obj.2, ⟨by rw [ht', h.near.pk, hm.obj.2], Or.inr ⟨Or.inr hl, ?_, ?_⟩⟩, ?_⟩
          · rw [ht', hnd.1, hop]
          · rw [ht', hnd.2, hol, hlen]
          · rw [hdp]; unfold destPath; rw [hc]; exact hop
        · have hpre : ¬ x.path <+: t0.path := fun hpre => hr' (Or.inl ((desc_iff (L := 1) hi.inv (by omega) hx h.target).2 ⟨hpre, hxt⟩))
          obtain ⟨t1, ht1, hk1, hl1, hd1, he1⟩ := hkept t0 h.target hpre
          have hdest : destPath pos t1 = destPath pos t0 := by
            cases hc : isChildPos pos with
            | true =>
              have hdp : destPath pos t0 = t0.path := by unfold destPath; rw [hc]; rfl
              rw [he1 (Or.inr (by rw [hdp]; exact fun h => Nat.lt_irrefl _ h.2))]
            | false =>
              have hdp : ∀ a : Row, destPath pos a = a.path.dropLast := fun a => by unfold destPath; rw [hc]; rfl
              rw [hdp, hdp]
              rw [hdp] at hd1
              exact hd1 rfl
          by_cases hfl : pos = .firstSibling ∨ pos = .lastSibling
          · have ht' : t' = t := hobj hfl _ e1
            have hc : isChildPos pos = false := by rcases hfl with rfl | rfl <;> rfl
            have hdp : ∀ a : Row, destPath pos a = a.path.dropLast := fun a => by unfold destPath; rw [hc]; rfl
            rw [hdp, hdp] at hdest
            exact ⟨t1, ht1, hk1, ⟨by rw [ht', h.near.pk, hk1], Or.inr ⟨hfl, by rw [ht', hnd.1, hdest], by rw [ht', hnd.2, hl1]⟩⟩, by rw [hdp, hdp, hdest]⟩
          · have htt : t = t0 := h.near.same.resolve_right (fun h' => hfl h'.1)
            subst htt
            obtain ⟨d2, o2, t2, e2, ht2, hk2⟩ := moveObj_target ho hi hx h.target hxt hpos (fun e => hfl (Or.inl e)) hr'
            rw [e1] at e2
            cases e2
            have : t1 = t' := hm.consistent.inv.inv.pk_inj ht1 ht2 (by rw [hk1, hk2])
            subst this
            exact ⟨t1, ht1, hk1, .refl _ _, hdest⟩
      obtain ⟨t1, ht1, hk1, hn1, hd1⟩ := htarget
      refine ⟨d, o, t', t1, p, hr, rfl, e, hk1, ⟨hm.consistent, hstored, (List.pairwise_cons.1 h.apart).2, ht1, hn1, ?_⟩, hp, hm, ?_⟩
      · rw [hd1]
        exact h.out.imp id (fun h' y hy => h' y (List.mem_cons_of_mem _ hy))
      · exact fun hE => (hend (hE.imp id Or.inl)).forest

/-- **The loop with the objects fetched before does the same as that with objects fetched anew.** -/
theorem moveLoop_fresh (ho : cfg.ordered = false) {posArg : Option Pos} {pos : Pos} (hpos : preparePosForMove false posArg = .ok pos) :
    ∀ {xs : List Row} {t t0 : Row} {db : DB}, LoopInv pos db xs t t0 → moveLoop cfg posArg xs t db = moveFresh cfg posArg t0.pk (xs.map Row.pk) db := by
  intro xs
  induction xs with
  | nil => intros; rfl
  | cons x xs ih =>
    intro t t0 db h
    have hi := h.consistent.inv.inv
    have e1 : db.get? x.pk = some x := (get?_eq_some hi).2 ⟨h.stored x (List.mem_cons_self ..), rfl⟩
    have e2 : db.get? t0.pk = some t0 := (get?_eq_some hi).2 ⟨h.target, rfl⟩
    rw [List.map_cons]
    unfold moveLoop moveFresh
    rw [e1, e2]
    rcases h.step ho hpos with ⟨_, h1, h2⟩ | ⟨db', obj, t', t1, p, _, h1, h2, h3, h4, _⟩
    · simp only [h1, h2]
    · simp only [h1, h2]
      rw [← h3]
      exact ih h4

end Verif.LT
