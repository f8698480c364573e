/-
NS: the children of a node moved right behind it, the last one first, with objects fetched before.
-/
import Verif.NS.Arrange
import Verif.DissolveLemmas

namespace Verif.NS

variable {cfg : Cfg} {db db' : DB}

/-- the hole to the right of `t` is made without touching what is in the branch of `t` -/
theorem hole_right (hn : NI db.rows) {t x t2 : Row} (ht : t ∈ db.rows) {pos2 : Pos} (hr : Resolved db.rows t .right pos2 t2) {T np : Int}
    (e : makeHole db x t2 none none pos2 = .ok (db', T, np)) :
    ∃ f : Row → Row, db'.rows = db.rows.map f ∧ (∀ r, (f r).pk = r.pk) ∧ ∀ r, r.tree = t.tree → r.rgt < t.rgt → f r = r := by
  have hgap : ∀ s : Int, t.rgt ≤ s → ∀ o, ∃ f : Row → Row, (alterGap db t.tree s o).rows = db.rows.map f ∧ (∀ r, (f r).pk = r.pk) ∧ ∀ r, r.tree = t.tree → r.rgt < t.rgt → f r = r := by
    intro s hs o
    refine ⟨gapRow t.tree s o, rfl, fun r => gapRow_pk .., fun r _ h2 => ?_⟩
    unfold gapRow
    rw [if_neg (by omega)]
  rcases hr.cases with ⟨rfl, rfl, _⟩ | ⟨hp, ⟨h, _⟩ | ⟨h, _⟩ | ⟨_, hlt, _⟩⟩
  · unfold makeHole at e
    simp only at e
    split at e
    · split at e
      · cases e
      · split at e
        · cases e
        · cases e
          exact ⟨id, by simp, fun r => rfl, fun r _ _ => rfl⟩
    · rename_i hroot
      rcases getParent_spec hn ht with ⟨h1, _⟩ | ⟨_, p, hi, _, h3⟩
      · exact absurd (by simp [Row.isRoot, h1]) hroot
      · rw [h3] at e
        simp only [Except.ok.injEq, Prod.mk.injEq] at e
        rw [← e.1]
        exact hgap _ (by have := hi.2.1.2.2; omega) _
  · cases h
  · cases h
  · -- before the next sibling
    have hne : t ≠ t2 := by
      rintro rfl
      rcases lt_iff.1 hlt with h | ⟨_, h⟩ <;> omega
    unfold makeHole at e
    simp only at e
    by_cases hroot : t2.isRoot = true
    · rw [if_pos hroot] at e
      have hl2 : t2.lft = 1 := by simpa [Row.isRoot] using hroot
      have htree : t.tree < t2.tree := by
        rcases lt_iff.1 hlt with h | ⟨_, h⟩
        · exact h
        · have := hn.one t ht; omega
      rcases hp with rfl | ⟨rfl, hmin⟩
      · cases e
        refine ⟨treeRightRow t2.tree, rfl, fun r => by unfold treeRightRow; split <;> rfl, fun r h1 _ => ?_⟩
        unfold treeRightRow
        rw [if_neg (by omega)]
      · exact absurd hlt (hmin t ht rfl)
    · rw [if_neg hroot] at e
      have hsame : t2.tree = t.tree ∧ t.rgt < t2.lft := by
        rcases getParent_spec hn hr.mem with ⟨h1, _⟩ | ⟨_, p, hi, hpar, _⟩
        · exact absurd (by simp [Row.isRoot, h1]) hroot
        · have hpt : par db.rows t = some p.pk := by rw [← hr.par]; exact hpar
          have hit := (par_row hn hi.1 ht).1 hpt
          have htr : t2.tree = t.tree := by rw [← hi.2.1.1]; exact hit.2.1.1
          refine ⟨htr, ?_⟩
          have hll : t.lft < t2.lft := by
            rcases lt_iff.1 hlt with h | ⟨_, h⟩
            · omega
            · exact h
          by_contra hc
          have hd := hn.dist t2 hr.mem t ht hne.symm htr
          have henc : encl t t2 := ⟨htr.symm, hll, hn.lam t ht t2 hr.mem htr.symm hll (by omega)⟩
          rcases hi.2.2 t ht henc with h1 | h1
          · rw [h1] at hit
            exact encl_irrefl _ hit.2.1
          · have h2 := hit.2.1
            have := h1.2.1
            have := h2.2.1
            omega
      rcases hp with rfl | ⟨rfl, hmin⟩
      · cases e
        rw [hsame.1]
        exact hgap _ (by omega) _
      · exact absurd hlt (hmin t ht rfl)

/-- a move to the right of `t` out of the branch of `t` keeps the rows of this branch that end before the moved node begins -/
theorem right_kept (hn : NI db.rows) {t x : Row} (ht : t ∈ db.rows) (hx : x ∈ db.rows) (he : encl t x) {posArg : Option Pos}
    (hprep : preparePosForMove cfg.ordered posArg = .ok .right) {res : MoveResult} (e : move cfg db x t none posArg = .ok res) :
    ∀ r ∈ db.rows, r.tree = t.tree → r.rgt < x.lft → r ∈ res.db.rows := by
  unfold move at e
  rw [hprep] at e
  simp only at e
  have hv : moveVars db x t .right = .ok (.right, t, none) := rfl
  rw [hv] at e
  simp only at e
  unfold moveFrom at e
  have hne : x.pk ≠ t.pk := fun h => by
    rw [hn.pk_inj hx ht h] at he
    exact encl_irrefl _ he
  have hnoop : moveNoop db x t .right = .ok false := by unfold moveNoop; rw [if_neg hne]
  have es : resolveSorted cfg db .right t x.vals = .ok (.right, t) := by unfold resolveSorted; rw [if_neg (by simp)]
  rw [hnoop, es] at e
  simp only at e
  split at e
  · cases e
  · obtain ⟨pos2, t2, er, hres⟩ := resolvePos_spec hn ht (pos := .right) (Or.inr (Or.inr (Or.inl rfl)))
    rw [er] at e
    simp only at e
    unfold moveTo at e
    rw [ite_self] at e
    split at e
    · cases e
    · rename_i db1 T np eh
      obtain ⟨f, hf, hpk, hfix⟩ := hole_right hn ht hres eh
      have hx1 : db1.get? x.pk = some x := by
        have hfx : f x = x := hfix x he.1.symm he.2.2
        have hnd : (db1.rows.map Row.pk).Nodup := by
          rw [hf, List.map_map]
          have : (Row.pk ∘ f) = Row.pk := funext hpk
          rw [this]
          exact hn.pks
        have hmem : x ∈ db1.rows := by rw [hf]; exact List.mem_map.2 ⟨x, hx, hfx⟩
        cases hg : db1.get? x.pk with
        | none => exact absurd (List.find?_eq_none.1 hg x hmem) (by simp)
        | some y =>
          have hy := List.mem_of_find?_eq_some hg
          have hk : y.pk = x.pk := by have := List.find?_some hg; simpa using this
          rw [(List.inj_on_of_nodup_map hnd) hy hmem hk]
      rw [hx1] at e
      simp only at e
      split at e
      · cases e
        intro r hr h1 h2
        show r ∈ ((db1.rows.map _).map _)
        rw [hf, List.map_map, List.map_map]
        refine List.mem_map.2 ⟨r, hr, ?_⟩
        have hlr := hn.lr r hr
        have hxr := he.2.2
        have hxl := hn.lr x hx
        simp only [Function.comp]
        rw [hfix r h1 (by omega)]
        unfold jumpRow
        rw [if_neg (by omega)]
        unfold gapRow
        rw [if_neg (by omega)]
      · cases e

/-- What holds before every move of a child of `t` to the right of `t`, the last one first: the objects are still good. -/
structure OutInv (db : DB) (nodes : List Row) (t : Row) : Prop where
  consistent : Consistent db
  stored : ∀ x ∈ nodes, x ∈ db.rows
  apart : nodes.Pairwise (fun a b => b.rgt < a.lft)
  target : t ∈ db.rows
  inside : ∀ x ∈ nodes, encl t x

theorem OutInv.step (ho : cfg.ordered = false) {posArg : Option Pos} (hprep : preparePosForMove cfg.ordered posArg = .ok .right) {x t : Row} {xs : List Row}
    (h : OutInv db (x :: xs) t) :
    x ∈ db.rows ∧ ∃ res, ¬ (forest db).MoveRefused x.pk t.pk .right ∧ move cfg db x t none posArg = .ok res ∧ res.target.pk = t.pk ∧ OutInv res.db xs res.target ∧
      data res.db.rows = data db.rows ∧ ∃ p, t.pk ∈ forest db p ∧ forest res.db = (forest db).moveAsked x.pk p t.pk .right := by
  have hn := h.consistent.toNI
  have hx := h.stored x (List.mem_cons_self ..)
  have he := h.inside x (List.mem_cons_self ..)
  have hr : ¬ (forest db).MoveRefused x.pk t.pk .right := by
    rw [forest_eq hn]
    rintro (h1 | ⟨h1, _⟩)
    · rw [desc_PF hn hx h.target] at h1
      have := h1.2.1
      have := he.2.1
      omega
    · cases h1
  have hr' : ¬ Refused x t .right := fun h1 => hr ((refused_iff h.consistent hx h.target .right).1 h1)
  obtain ⟨res, e, hm⟩ := move_unsorted h.consistent ho hx h.target (cached := none) (by rintro p ⟨⟩) (by rw [ho] at hprep; exact hprep) hr'
  obtain ⟨ht1, ht2⟩ := hm.target
  have hkept := right_kept hn h.target hx he hprep e
  have hap := List.pairwise_cons.1 h.apart
  have hin : ∀ y ∈ xs, y ∈ res.db.rows := fun y hy =>
    hkept y (h.stored y (List.mem_cons_of_mem _ hy)) (h.inside y (List.mem_cons_of_mem _ hy)).1.symm (hap.1 y hy)
  refine ⟨hx, res, hr, e, ht2, ⟨hm.inv, hin, hap.2, ht1, fun y hy => ?_⟩, hm.data, par db.rows t, ?_, ?_⟩
  · -- still below the target: the moved node is neither above it nor its parent
    have hy0 := h.stored y (List.mem_cons_of_mem _ hy)
    have hey := h.inside y (List.mem_cons_of_mem _ hy)
    have hty : (PF db.rows).Desc t.pk y.pk := (desc_PF hn h.target hy0).2 hey
    have hxy : ¬ (x.pk = y.pk ∨ (PF db.rows).Desc x.pk y.pk) := by
      have h1 := hap.1 y hy
      have h2 := hn.lr y hy0
      have h3 := hn.lr x hx
      rintro (h4 | h4)
      · rw [hn.pk_inj hx hy0 h4] at h1; omega
      · rw [desc_PF hn hx hy0] at h4
        have := h4.2.1
        omega
    have hxt : t.pk ≠ x.pk := fun h4 => by
      rw [hn.pk_inj h.target hx h4] at he
      exact encl_irrefl _ he
    rw [← desc_PF hm.inv.toNI ht1 (hin y hy), ht2]
    obtain ⟨s, hs⟩ := asked_move (F := PF db.rows) (x := x.pk) (t := t.pk) hxt (p := par db.rows t) (pos := .right) (Or.inl (Or.inr (Or.inr (Or.inl rfl))))
    have hf : PF res.db.rows = (PF db.rows).move x.pk (Pos.right.dest (par db.rows t) t.pk) s := by rw [hm.forest, hs]
    rw [hf]
    have key : ∀ {z}, (PF db.rows).Desc t.pk z → ¬ (x.pk = z ∨ (PF db.rows).Desc x.pk z) → ((PF db.rows).move x.pk (Pos.right.dest (par db.rows t) t.pk) s).Desc t.pk z := by
      intro z hz
      induction hz with
      | child hz =>
        intro hne
        exact .child (Forest.subset_move (fun e' => hne (Or.inl e'.symm)) hz)
      | @step m z _ hz ih =>
        intro hne
        refine .step (ih (fun hc => hne (Or.inr ?_))) (Forest.subset_move (fun e' => hne (Or.inl e'.symm)) hz)
        rcases hc with rfl | hc
        · exact .child hz
        · exact .step hc hz
    exact key hty hxy
  · exact (mem_forest h.consistent h.target).2 rfl
  · rw [forest_eq hm.inv.toNI, forest_eq hn]
    exact hm.forest

/-- what the loop does -/
structure AllMoved (cfg : Cfg) (pos : Pos) (posArg : Option Pos) (xs : List Row) (t : Row) (db : DB) : Prop where
  fresh : moveLoop cfg posArg xs t db = moveFresh cfg posArg t.pk (xs.map Row.pk) db
  consistent : Consistent (moveLoop cfg posArg xs t db).1
  data : data (moveLoop cfg posArg xs t db).1.rows = data db.rows
  all : (moveLoop cfg posArg xs t db).2 = none
  moved : Forest.MovedAll pos t.pk (xs.map Row.pk) (forest db) (forest (moveLoop cfg posArg xs t db).1)

theorem out_loop (ho : cfg.ordered = false) {posArg : Option Pos} (hprep : preparePosForMove cfg.ordered posArg = .ok .right) :
    ∀ {xs : List Row} {t : Row} {db : DB}, OutInv db xs t → AllMoved cfg .right posArg xs t db := by
  intro xs
  induction xs with
  | nil => intro t db h; exact ⟨rfl, h.consistent, rfl, rfl, .nil _⟩
  | cons x xs ih =>
    intro t db h
    obtain ⟨hx, res, hr, e, hk, hi, hd, p, hp, hf⟩ := h.step ho hprep
    have hloop : moveLoop cfg posArg (x :: xs) t db = moveLoop cfg posArg xs res.target res.db := by
      conv => lhs; unfold moveLoop
      rw [e]
    have e1 : db.get? x.pk = some x := (get?_eq_some h.consistent.toNI).2 ⟨hx, rfl⟩
    have e2 : db.get? t.pk = some t := (get?_eq_some h.consistent.toNI).2 ⟨h.target, rfl⟩
    have hA := ih hi
    refine ⟨?_, by rw [hloop]; exact hA.consistent, by rw [hloop, hA.data, hd], by rw [hloop]; exact hA.all, ?_⟩
    · rw [hloop, hA.fresh, hk, List.map_cons]
      conv => rhs; unfold moveFresh
      rw [e1, e2]
      simp only [e]
    · rw [hloop, List.map_cons]
      refine .cons hp hr ?_
      rw [← hf, ← hk]
      exact hA.moved

end Verif.NS
