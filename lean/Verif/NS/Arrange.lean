/-
NS: the children of a node put in another order by objects fetched before.
-/
import Verif.NS.MoveLoop
import Verif.NS.Dump
import Verif.ArrangeLemmas

namespace Verif.NS

variable {cfg : Cfg} {db db' : DB}

/-- the last child ends right before its parent does -/
theorem last_rgt (h : Consistent db) {t : Row} (ht : t ∈ db.rows) {last : Row} (e : lastChild db t = some last) : last.rgt = t.rgt - 1 := by
  have hn := h.toNI
  have hmem := List.mem_of_getLast? e
  obtain ⟨hlm, hlp⟩ := (mem_children hn ht).1 hmem
  have hi := (par_row hn ht hlm).1 hlp
  have hle := hi.2.1
  have hlr := hn.lr last hlm
  obtain ⟨q, hq, hqt, hqi⟩ := h.full t ht (t.rgt - 1) (by have := hle.2.1; have := hle.2.2; omega) (by omega)
  have hqlr := hn.lr q hq
  have htlr := hn.lr t ht
  have hqne : q ≠ t := by
    rintro rfl
    rcases hqi with h1 | h1
    · have := hle.2.1; have := hle.2.2; omega
    · omega
  have hdist := hn.dist q hq t ht hqne hqt
  have hqin : encl t q := by
    rcases hqi with h1 | h1
    · have h2 : t.lft < q.lft := by have := hle.2.1; have := hle.2.2; omega
      exact ⟨hqt.symm, h2, hn.lam t ht q hq hqt.symm h2 (by omega)⟩
    · by_cases h2 : t.lft < q.lft
      · exact ⟨hqt.symm, h2, by omega⟩
      · exfalso
        have h3 : q.lft < t.lft := by omega
        have h4 := hle.2.1
        have h5 := hle.2.2
        have := hn.lam q hq t ht hqt h3 (by omega)
        omega
  have hqr : q.rgt = t.rgt - 1 := by
    rcases hqi with h1 | h1
    · have := hqin.2.2; omega
    · exact h1
  have hqinner : Inner db.rows t q := by
    refine ⟨ht, hqin, fun m hm hmq => ?_⟩
    by_cases hmt : m = t
    · exact Or.inl hmt
    · right
      have hd := hn.dist m hm t ht hmt (hmq.1.trans hqt)
      have h1 := hmq.2.2
      have h2 := hmq.2.1
      have h4 := hqin.2.1
      refine ⟨hmq.1.trans hqt, ?_, by omega⟩
      by_contra h3
      have := hn.lam t ht m hm (hmq.1.trans hqt).symm (by omega) (by have := hn.lr m hm; omega)
      omega
  have hqc : q ∈ children db t := (mem_children hn ht).2 ⟨hq, (par_row hn ht hq).2 hqinner⟩
  rcases (getLast?_max (children_sorted hn t) e).2 q hqc with rfl | hlt
  · exact hqr
  · exfalso
    have hltree : q.tree = last.tree := hqt.trans hle.1
    have h1 : q.lft < last.lft := by
      rcases lt_iff.1 hlt with h1 | ⟨_, h1⟩
      · omega
      · exact h1
    have hr1 := hle.2.2
    have hne : q ≠ last := by rintro rfl; omega
    have hd := hn.dist q hq last hlm hne hltree
    have : encl q last := ⟨hltree, h1, by omega⟩
    rcases hi.2.2 q hq this with h2 | h2
    · exact hqne h2
    · exact absurd h2.2.1 (by have := hqin.2.1; omega)

/-- A move that works for the row of a node works for an object with the same number of descendants, if the object does not seem to be above the place. -/
theorem move_alike_apart {x x0 t : Row} (ha : Alike x x0) {pos : Pos} (hT : ∀ pos1 t1 parent, moveVars db x0 t pos = .ok (pos1, t1, parent) → ¬ t1.isDescendantOf x = true)
    {posArg : Option Pos} (hprep : preparePosForMove cfg.ordered posArg = .ok pos) {res0 : MoveResult}
    (e0 : move cfg db x0 t none posArg = .ok res0) : ∃ res, move cfg db x t none posArg = .ok res ∧ res.db = res0.db ∧ res.target = res0.target := by
  unfold move at e0 ⊢
  rw [hprep] at e0 ⊢
  simp only at e0 ⊢
  rw [moveVars_alike ha.pk, ha.pk]
  split at e0
  · cases e0
  · rename_i pos1 t1 parent ev
    unfold moveFrom at e0 ⊢
    rw [if_neg (hT _ _ _ ev)]
    split at e0
    · cases e0
    · have : moveNoop db x t1 pos1 = moveNoop db x0 t1 pos1 := by unfold moveNoop; rw [ha.pk]
      rw [this, ha.vals]
      split at e0
      · cases e0
      · cases e0; exact ⟨_, rfl, rfl, rfl⟩
      · split at e0
        · cases e0
        · split at e0
          · cases e0
          · rw [moveTo_alike ha]
            exact ⟨res0, e0, rfl, rfl⟩

/-- A row after a branch has become the last child of a node: a gap is made where the node ends, the branch jumps, and the gap it leaves is closed. -/
def jumped (t x : Row) (T j d : Int) (r : Row) : Row :=
  let x1 := gapRow t.tree t.rgt (x.rgt - x.lft + 1) x
  gapRow x1.tree x1.lft (-(x1.rgt - x1.lft + 1)) (jumpRow x1.tree x1.lft x1.rgt T j d (gapRow t.tree t.rgt (x.rgt - x.lft + 1) r))

/-- what a move to the last child does to the rows -/
theorem lastChild_rows (h : Consistent db) {t x : Row} (ht : t ∈ db.rows) (hx : x ∈ db.rows) {posArg : Option Pos}
    (hprep : preparePosForMove cfg.ordered posArg = .ok .lastChild) {res : MoveResult} (e : move cfg db x t none posArg = .ok res) :
    res.db.rows = db.rows ∨ ∃ T j d, res.db.rows = db.rows.map (jumped t x T j d) := by
  have hn := h.toNI
  unfold move at e
  rw [hprep] at e
  simp only at e
  split at e
  · cases e
  · rename_i pos1 t1 parent ev
    unfold moveFrom at e
    split at e
    · cases e
    · split at e
      · cases e
      · cases e
        exact Or.inl rfl
      · right
        -- the place of the gap
        have hole : ∃ pos2 t2, (pos2, t2) = (if t.isLeaf then (Pos.lastChild, t) else (Pos.lastSibling, t1)) ∧
            makeHole db x t2 parent none pos2 = .ok (alterGap db t.tree t.rgt (x.rgt - x.lft + 1), t.tree, t.rgt) ∧ pos1 = pos2 ∧ t1 = t2 := by
          unfold moveVars at ev
          rw [if_pos (show isChildPos .lastChild = true from rfl)] at ev
          split at ev
          · cases ev
          · by_cases hl : t.isLeaf = true
            · rw [if_pos hl] at ev
              simp only [Except.ok.injEq, Prod.mk.injEq] at ev
              obtain ⟨rfl, rfl, rfl⟩ := ev
              exact ⟨.lastChild, t, by rw [if_pos hl], rfl, rfl, rfl⟩
            · rw [if_neg hl] at ev
              cases hlast : lastChild db t with
              | none => rw [hlast] at ev; cases ev
              | some last =>
                rw [hlast] at ev
                simp only [Except.ok.injEq, Prod.mk.injEq] at ev
                obtain ⟨rfl, rfl, rfl⟩ := ev
                obtain ⟨hlr, hlp⟩ := (mem_children hn ht).1 (List.mem_of_getLast? hlast)
                have hli := (par_row hn ht hlr).1 hlp
                have hl1 : last.lft ≠ 1 := by have := hli.2.1.2.1; have := hn.one t ht; omega
                have hp : getParent db last none = .ok (some t) := by
                  rcases getParent_spec hn hlr with ⟨h1, _⟩ | ⟨_, p, hi, _, h3⟩
                  · exact absurd h1 hl1
                  · rw [h3, hi.unique hli]
                refine ⟨.lastSibling, last, by rw [if_neg hl], ?_, rfl, rfl⟩
                unfold makeHole
                simp only
                rw [if_neg (by simpa [Row.isRoot] using hl1), hp, show last.tree = t.tree from hli.2.1.1.symm]
        obtain ⟨pos2, t2, hpt, eh, rfl, rfl⟩ := hole
        have hpos : pos1 = .lastChild ∨ pos1 = .lastSibling := by
          split at hpt
          · exact Or.inl (Prod.mk.inj hpt).1
          · exact Or.inr (Prod.mk.inj hpt).1
        have es : resolveSorted cfg db pos1 t1 x.vals = .ok (pos1, t1) := by
          unfold resolveSorted
          rw [if_neg (by rcases hpos with rfl | rfl <;> simp)]
        have er : resolvePos db pos1 t1 = .ok (pos1, t1) := by
          unfold resolvePos
          rw [if_neg (by rcases hpos with rfl | rfl <;> simp)]
        rw [es] at e
        simp only at e
        rw [er] at e
        simp only at e
        unfold moveTo at e
        rw [ite_self, eh] at e
        simp only at e
        split at e
        · cases e
        · rename_i x1 ex
          have hx1 : x1 ∈ db.rows.map (gapRow t.tree t.rgt (x.rgt - x.lft + 1)) := List.mem_of_find?_eq_some ex
          have hx1k : x1.pk = x.pk := by have := List.find?_some ex; simpa using this
          obtain ⟨y, hy, rfl⟩ := List.mem_map.1 hx1
          rw [gapRow_pk] at hx1k
          obtain rfl := hn.pk_inj hy hx hx1k
          split at e
          · cases e
            refine ⟨t.tree, t.rgt - (gapRow t.tree t.rgt (y.rgt - y.lft + 1) y).lft,
              t1.depth - (gapRow t.tree t.rgt (y.rgt - y.lft + 1) y).depth + (if parent.isSome = true then 1 else 0), ?_⟩
            show ((db.rows.map _).map _).map _ = _
            rw [List.map_map, List.map_map]
            rfl
          · cases e

theorem jumped_pk (t x : Row) (T j d : Int) (r : Row) : (jumped t x T j d r).pk = r.pk := by
  unfold jumped
  simp only
  rw [gapRow_pk]
  unfold jumpRow
  split
  · exact gapRow_pk ..
  · exact gapRow_pk ..

/-- not in another tree only if it ends before `t` does -/
def EndsBefore (t r : Row) : Prop := r.tree = t.tree → r.rgt < t.rgt

/-- the moved node was before the end of its new parent: for everything else that was, nothing gets beyond it -/
theorem jumped_before {t x : Row} (hxlr : x.lft < x.rgt) (hx : EndsBefore t x) (htlr : t.lft < t.rgt) (hxt : ¬ (t.tree = x.tree ∧ x.lft ≤ t.lft ∧ t.lft ≤ x.rgt)) (T j d : Int) :
    (jumped t x T j d t).tree = t.tree ∧ t.rgt ≤ (jumped t x T j d t).rgt ∧
    ∀ r : Row, r.lft < r.rgt → EndsBefore t r → ¬ (r.tree = x.tree ∧ x.lft ≤ r.lft ∧ r.lft ≤ x.rgt) → EndsBefore (jumped t x T j d t) (jumped t x T j d r) := by
  have ex : gapRow t.tree t.rgt (x.rgt - x.lft + 1) x = x := by
    unfold gapRow
    rw [if_neg]
    rintro ⟨h1, h2⟩
    have := hx h2
    omega
  have ey : ∀ r : Row, EndsBefore t r → gapRow t.tree t.rgt (x.rgt - x.lft + 1) r = r := by
    intro r hr
    unfold gapRow
    rw [if_neg]
    rintro ⟨h1, h2⟩
    have := hr h2
    omega
  have ej : ∀ r : Row, ¬ (r.tree = x.tree ∧ x.lft ≤ r.lft ∧ r.lft ≤ x.rgt) → jumpRow x.tree x.lft x.rgt T j d r = r := by
    intro r hr
    unfold jumpRow
    rw [if_neg hr]
  have et : gapRow t.tree t.rgt (x.rgt - x.lft + 1) t = { t with rgt := t.rgt + (x.rgt - x.lft + 1) } := by
    unfold gapRow
    rw [if_pos ⟨Int.le_refl _, rfl⟩, if_neg (by omega)]
  have e1 : jumped t x T j d t = gapRow x.tree x.lft (-(x.rgt - x.lft + 1)) { t with rgt := t.rgt + (x.rgt - x.lft + 1) } := by
    unfold jumped
    simp only
    rw [ex, et, ej { t with rgt := t.rgt + (x.rgt - x.lft + 1) } hxt]
  have e2 : (jumped t x T j d t).tree = t.tree := by
    rw [e1, gapRow_tree]
  have e3 : t.rgt ≤ (jumped t x T j d t).rgt := by
    rw [e1]
    unfold gapRow
    split
    · show t.rgt ≤ t.rgt + (x.rgt - x.lft + 1) + -(x.rgt - x.lft + 1)
      omega
    · show t.rgt ≤ t.rgt + (x.rgt - x.lft + 1)
      omega
  refine ⟨e2, e3, ?_⟩
  intro r _ hr hrx
  have e4 : jumped t x T j d r = gapRow x.tree x.lft (-(x.rgt - x.lft + 1)) r := by
    unfold jumped
    simp only
    rw [ex, ey r hr, ej r hrx]
  have e5 : (jumped t x T j d r).rgt ≤ r.rgt := by
    rw [e4]
    unfold gapRow
    split
    · show r.rgt + -(x.rgt - x.lft + 1) ≤ r.rgt
      omega
    · exact Int.le_refl _
  intro h1
  rw [e2, e4, gapRow_tree] at h1
  have := hr h1
  omega

/-- What holds before every move below `t`, as last child, of nodes that end before `t` does or are in other trees. -/
structure LeftInv (db : DB) (nodes : List Row) (t : Row) : Prop where
  consistent : Consistent db
  stored : ∀ x ∈ nodes, ∃ r ∈ db.rows, Alike x r ∧ EndsBefore t r
  apart : nodes.Pairwise (fun a b => b.pk ≠ a.pk ∧ ¬ (PF db.rows).Desc b.pk a.pk)
  target : t ∈ db.rows
  above : ∀ x ∈ nodes, x.pk ≠ t.pk ∧ ¬ (PF db.rows).Desc x.pk t.pk
  left : ∀ x ∈ nodes, EndsBefore t x

theorem not_in_branch (hn : NI db.rows) {x r : Row} (hx : x ∈ db.rows) (hr : r ∈ db.rows) (hne : x.pk ≠ r.pk) (hd : ¬ (PF db.rows).Desc x.pk r.pk) :
    ¬ (r.tree = x.tree ∧ x.lft ≤ r.lft ∧ r.lft ≤ x.rgt) := by
  rintro ⟨h1, h2, h3⟩
  have hne' : r ≠ x := fun e => hne (by rw [e])
  have := hn.dist r hr x hx hne' h1
  have hlt : x.lft < r.lft := by omega
  exact hd ((desc_PF hn hx hr).2 ⟨h1.symm, hlt, hn.lam x hx r hr h1.symm hlt (by omega)⟩)

theorem LeftInv.step (ho : cfg.ordered = false) {posArg : Option Pos} (hprep : preparePosForMove cfg.ordered posArg = .ok .lastChild) {x t : Row} {xs : List Row}
    (h : LeftInv db (x :: xs) t) :
    ∃ x0 ∈ db.rows, ∃ res res0, x0.pk = x.pk ∧ ¬ (forest db).MoveRefused x.pk t.pk .lastChild ∧ move cfg db x t none posArg = .ok res ∧ move cfg db x0 t none posArg = .ok res0 ∧
      res.db = res0.db ∧ res.target = res0.target ∧ res.target.pk = t.pk ∧ LeftInv res.db xs res.target ∧ data res.db.rows = data db.rows ∧
      ∃ p, t.pk ∈ forest db p ∧ forest res.db = (forest db).moveAsked x.pk p t.pk .lastChild := by
  have hn := h.consistent.toNI
  obtain ⟨x0, hx0, hxa, hxb⟩ := h.stored x (List.mem_cons_self ..)
  have hin := h.left x (List.mem_cons_self ..)
  obtain ⟨hxt, hxd⟩ := h.above x (List.mem_cons_self ..)
  rw [hxa.pk] at hxt hxd
  have hr : ¬ (forest db).MoveRefused x0.pk t.pk .lastChild := by
    rw [forest_eq hn]
    rintro (h1 | ⟨_, h1⟩)
    · exact hxd h1
    · exact hxt h1.symm
  have hr' : ¬ Refused x0 t .lastChild := fun h1 => hr ((refused_iff h.consistent hx0 h.target .lastChild).1 h1)
  obtain ⟨res0, e0, hm⟩ := move_unsorted h.consistent ho hx0 h.target (cached := none) (by rintro p ⟨⟩) (by rw [ho] at hprep; exact hprep) hr'
  obtain ⟨res, e, hdb, htgt⟩ := move_alike_apart hxa (pos := .lastChild) (by
    intro pos1 t1 parent ev hd
    unfold Row.isDescendantOf at hd
    simp only [Bool.and_eq_true, beq_iff_eq, decide_eq_true_eq] at hd
    unfold moveVars at ev
    rw [if_pos (show isChildPos .lastChild = true from rfl)] at ev
    split at ev
    · cases ev
    · split at ev
      · cases ev
        have := hin hd.1.1.symm
        omega
      · split at ev
        · cases ev
        · rename_i last hl
          cases ev
          have h1 := last_rgt h.consistent h.target hl
          have h2 := hin (hd.1.1.symm.trans (children_tree (List.mem_of_getLast? hl)))
          omega) hprep e0
  obtain ⟨ht1, ht2⟩ := hm.target
  have hforest : PF res0.db.rows = (PF db.rows).move x0.pk (some t.pk) .last := hm.forest
  have hxin : x0.pk ∈ PF res0.db.rows (some t.pk) := by
    rw [hforest, Forest.move_last, Forest.mem_gather]
    exact Or.inr ⟨rfl, by simp⟩
  have hnt := not_in_branch hn hx0 h.target hxt hxd
  -- the target afterwards, and the other nodes
  have hrows : res0.target.tree = t.tree ∧ t.rgt ≤ res0.target.rgt ∧
      ∀ r ∈ db.rows, EndsBefore t r → ∀ r' ∈ res0.db.rows, r'.pk = r.pk → EndsBefore res0.target r' := by
    have hbranch : ∀ r ∈ db.rows, (x0.pk = r.pk ∨ (PF db.rows).Desc x0.pk r.pk) → ∀ r' ∈ res0.db.rows, r'.pk = r.pk → EndsBefore res0.target r' := by
      intro r hr0 hd r' hr1 hk _
      have hdx : ∀ {z}, (PF db.rows).Desc x0.pk z → (PF res0.db.rows).Desc x0.pk z := by
        intro z hz
        rw [hforest]
        refine (desc_move ?_ ?_ ?_).2 hz
        · rw [desc_PF hn hx0 hx0]; exact encl_irrefl _
        · intro e1; exact hxt (Option.some.inj e1).symm
        · intro k hk; cases hk; exact hxd
      have : (PF res0.db.rows).Desc t.pk r.pk := by
        rcases hd with e1 | hd
        · rw [← e1]; exact .child hxin
        · have h1 : (PF res0.db.rows).Desc t.pk x0.pk := .child hxin
          exact h1.trans (hdx hd)
      rw [← ht2, ← hk, desc_PF hm.inv.toNI ht1 hr1] at this
      exact this.2.2
    rcases lastChild_rows h.consistent h.target hx0 hprep e0 with er | ⟨T, j, d, er⟩
    · have e1 : res0.target = t := by
        rw [er] at ht1
        exact hn.pk_inj ht1 h.target ht2
      rw [e1]
      refine ⟨rfl, Int.le_refl _, fun r hr0 hb r' hr1 hk => ?_⟩
      rw [er] at hr1
      rw [hn.pk_inj hr1 hr0 hk]
      exact hb
    · have e1 : res0.target = jumped t x0 T j d t := by
        refine hm.inv.toNI.pk_inj ht1 ?_ (by rw [ht2, jumped_pk])
        rw [er]
        exact List.mem_map_of_mem h.target
      obtain ⟨h1, h2, h3⟩ := jumped_before (hn.lr x0 hx0) hxb (hn.lr t h.target) hnt T j d
      refine ⟨by rw [e1]; exact h1, by rw [e1]; exact h2, fun r hr0 hb r' hr1 hk => ?_⟩
      by_cases hc : x0.pk = r.pk ∨ (PF db.rows).Desc x0.pk r.pk
      · exact hbranch r hr0 hc r' hr1 hk
      · have e2 : r' = jumped t x0 T j d r := by
          refine hm.inv.toNI.pk_inj hr1 ?_ (by rw [hk, jumped_pk])
          rw [er]
          exact List.mem_map_of_mem hr0
        rw [e1, e2]
        exact h3 r (hn.lr r hr0) hb (not_in_branch hn hx0 hr0 (fun h => hc (Or.inl h)) (fun h => hc (Or.inr h)))
  obtain ⟨htree, hrgt, hbef⟩ := hrows
  have hkeep : ∀ y ∈ xs, ∀ z, (PF res0.db.rows).Desc y.pk z ↔ (PF db.rows).Desc y.pk z := by
    intro y hy z
    obtain ⟨h1, h2⟩ := h.above y (List.mem_cons_of_mem _ hy)
    rw [hforest]
    refine desc_move ?_ ?_ ?_
    · rw [← hxa.pk]; exact ((List.pairwise_cons.1 h.apart).1 y hy).2
    · intro e1; exact h1 (Option.some.inj e1).symm
    · intro k hk; cases hk; exact h2
  refine ⟨x0, hx0, res, res0, hxa.pk.symm, by rw [hxa.pk]; exact hr, e, e0, hdb, htgt, by rw [htgt]; exact ht2, ?_, by rw [hdb]; exact hm.data, par db.rows t, ?_, ?_⟩
  · rw [hdb, htgt]
    refine ⟨hm.inv, ?_, ?_, ht1, ?_, ?_⟩
    · intro y hy
      obtain ⟨y0, hy0, hya, hyb⟩ := h.stored y (List.mem_cons_of_mem _ hy)
      have : (y0.pk, y0.vals) ∈ data res0.db.rows := by rw [hm.data]; exact List.mem_map_of_mem (f := fun r : Row => (r.pk, r.vals)) hy0
      obtain ⟨y1, hy1, ey⟩ := List.mem_map.1 this
      obtain ⟨ek, ev⟩ := Prod.mk.inj ey
      refine ⟨y1, hy1, ⟨hya.pk.trans ek.symm, hya.vals.trans ev.symm, ?_⟩, hbef y0 hy0 hyb y1 hy1 ek⟩
      rw [hya.width]
      refine (width_eq h.consistent hm.inv hm.data hy0 hy1 ek ?_).symm
      rw [← hya.pk]
      exact hkeep y hy
    · refine List.Pairwise.imp_of_mem ?_ (List.pairwise_cons.1 h.apart).2
      rintro a b ha hb ⟨h1, h2⟩
      exact ⟨h1, fun h3 => h2 ((hkeep b hb _).1 h3)⟩
    · intro y hy
      obtain ⟨h1, h2⟩ := h.above y (List.mem_cons_of_mem _ hy)
      rw [ht2]
      exact ⟨h1, fun h3 => h2 ((hkeep y hy _).1 h3)⟩
    · intro y hy hyt
      have := h.left y (List.mem_cons_of_mem _ hy) (hyt.trans htree)
      omega
  · exact (mem_forest h.consistent h.target).2 rfl
  · rw [hdb, forest_eq hm.inv.toNI, forest_eq hn, hxa.pk]
    exact hm.forest

/-- What holds before every move below `t`, as last child, of nodes after `t` that follow each other: the objects stay up to date. -/
structure RightInv (db : DB) (nodes : List Row) (t : Row) : Prop where
  consistent : Consistent db
  stored : ∀ x ∈ nodes, x ∈ db.rows
  apart : nodes.Pairwise (fun a b => a.rgt < b.lft)
  target : t ∈ db.rows
  right : ∀ x ∈ nodes, x.tree = t.tree ∧ t.rgt < x.lft

theorem jumped_after {t x : Row} (hxlr : x.lft < x.rgt) (htlr : t.lft < t.rgt) (hx : x.tree = t.tree ∧ t.rgt < x.lft) (T j d : Int) :
    jumped t x T j d t = { t with rgt := t.rgt + (x.rgt - x.lft + 1) } ∧ ∀ r : Row, r.tree = t.tree → x.rgt < r.lft → r.lft < r.rgt → jumped t x T j d r = r := by
  obtain ⟨hx1, hx2⟩ := hx
  have ex : gapRow t.tree t.rgt (x.rgt - x.lft + 1) x = { x with lft := x.lft + (x.rgt - x.lft + 1), rgt := x.rgt + (x.rgt - x.lft + 1) } := by
    unfold gapRow
    rw [if_pos ⟨by omega, hx1⟩, if_pos (by omega)]
  constructor
  · have et : gapRow t.tree t.rgt (x.rgt - x.lft + 1) t = { t with rgt := t.rgt + (x.rgt - x.lft + 1) } := by
      unfold gapRow
      rw [if_pos ⟨Int.le_refl _, rfl⟩, if_neg (by omega)]
    unfold jumped
    simp only
    rw [ex, et]
    unfold jumpRow
    rw [if_neg (by rintro ⟨_, h2, _⟩; dsimp only at h2; omega)]
    unfold gapRow
    rw [if_neg (by rintro ⟨h2, _⟩; dsimp only at h2; omega)]
  · intro r hr1 hr2 hr3
    have e1 : gapRow t.tree t.rgt (x.rgt - x.lft + 1) r = { r with lft := r.lft + (x.rgt - x.lft + 1), rgt := r.rgt + (x.rgt - x.lft + 1) } := by
      unfold gapRow
      rw [if_pos ⟨by omega, hr1⟩, if_pos (by omega)]
    unfold jumped
    simp only
    rw [ex, e1]
    unfold jumpRow
    rw [if_neg (by rintro ⟨_, _, h3⟩; dsimp only at h3; omega)]
    unfold gapRow
    rw [if_pos ⟨by dsimp only; omega, by dsimp only; omega⟩, if_pos (by dsimp only; omega)]
    dsimp only
    have h1 : r.lft + (x.rgt - x.lft + 1) + -(x.rgt + (x.rgt - x.lft + 1) - (x.lft + (x.rgt - x.lft + 1)) + 1) = r.lft := by omega
    have h2 : r.rgt + (x.rgt - x.lft + 1) + -(x.rgt + (x.rgt - x.lft + 1) - (x.lft + (x.rgt - x.lft + 1)) + 1) = r.rgt := by omega
    rw [h1, h2]

theorem RightInv.step (ho : cfg.ordered = false) {posArg : Option Pos} (hprep : preparePosForMove cfg.ordered posArg = .ok .lastChild) {x t : Row} {xs : List Row}
    (h : RightInv db (x :: xs) t) :
    x ∈ db.rows ∧ ∃ res, ¬ (forest db).MoveRefused x.pk t.pk .lastChild ∧ move cfg db x t none posArg = .ok res ∧ res.target.pk = t.pk ∧ RightInv res.db xs res.target ∧
      data res.db.rows = data db.rows ∧ ∃ p, t.pk ∈ forest db p ∧ forest res.db = (forest db).moveAsked x.pk p t.pk .lastChild := by
  have hn := h.consistent.toNI
  have hx := h.stored x (List.mem_cons_self ..)
  obtain ⟨h1, h2⟩ := h.right x (List.mem_cons_self ..)
  have htlr := hn.lr t h.target
  have hxlr := hn.lr x hx
  have hr : ¬ (forest db).MoveRefused x.pk t.pk .lastChild := by
    rw [forest_eq hn]
    rintro (h3 | ⟨_, h3⟩)
    · rw [desc_PF hn hx h.target] at h3
      have := h3.2.1
      omega
    · have e := hn.pk_inj h.target hx h3
      rw [← e] at h2
      omega
  have hr' : ¬ Refused x t .lastChild := fun h1 => hr ((refused_iff h.consistent hx h.target .lastChild).1 h1)
  obtain ⟨res, e, hm⟩ := move_unsorted h.consistent ho hx h.target (cached := none) (by rintro p ⟨⟩) (by rw [ho] at hprep; exact hprep) hr'
  obtain ⟨ht1, ht2⟩ := hm.target
  refine ⟨hx, res, hr, e, ht2, ?_, hm.data, par db.rows t, (mem_forest h.consistent h.target).2 rfl, by rw [forest_eq hm.inv.toNI, forest_eq hn]; exact hm.forest⟩
  rcases lastChild_rows h.consistent h.target hx hprep e with er | ⟨T, j, d, er⟩
  · have e1 : res.target = t := by
      rw [er] at ht1
      exact hn.pk_inj ht1 h.target ht2
    rw [e1] at ht1 ⊢
    exact ⟨hm.inv, fun y hy => by rw [er]; exact h.stored y (List.mem_cons_of_mem _ hy), (List.pairwise_cons.1 h.apart).2, ht1, fun y hy => h.right y (List.mem_cons_of_mem _ hy)⟩
  · obtain ⟨j1, j2⟩ := jumped_after hxlr htlr ⟨h1, h2⟩ T j d
    have e1 : res.target = jumped t x T j d t := by
      refine hm.inv.toNI.pk_inj ht1 ?_ (by rw [ht2, jumped_pk])
      rw [er]
      exact List.mem_map_of_mem h.target
    rw [e1, j1]
    refine ⟨hm.inv, fun y hy => ?_, (List.pairwise_cons.1 h.apart).2, by rw [← j1, ← e1]; exact ht1, fun y hy => ?_⟩
    · have hy0 := h.stored y (List.mem_cons_of_mem _ hy)
      rw [er, ← j2 y (h.right y (List.mem_cons_of_mem _ hy)).1 ((List.pairwise_cons.1 h.apart).1 y hy) (hn.lr y hy0)]
      exact List.mem_map_of_mem hy0
    · have h3 := (List.pairwise_cons.1 h.apart).1 y hy
      refine ⟨(h.right y (List.mem_cons_of_mem _ hy)).1, ?_⟩
      show t.rgt + (x.rgt - x.lft + 1) < y.lft
      omega

/-- what a loop of moves below `t`, as last children, leaves, when no move fails -/
structure AllBelow (cfg : Cfg) (posArg : Option Pos) (xs : List Row) (t : Row) (db : DB) : Prop where
  fresh : moveLoop cfg posArg xs t db = moveFresh cfg posArg t.pk (xs.map Row.pk) db
  consistent : Consistent (moveLoop cfg posArg xs t db).1
  data : data (moveLoop cfg posArg xs t db).1.rows = data db.rows
  all : (moveLoop cfg posArg xs t db).2 = none
  moved : Forest.MovedAll .lastChild t.pk (xs.map Row.pk) (forest db) (forest (moveLoop cfg posArg xs t db).1)

/-- **Nodes that end before the target does, or are in other trees, go below it**, with the objects fetched before. -/
theorem left_loop (ho : cfg.ordered = false) {posArg : Option Pos} (hprep : preparePosForMove cfg.ordered posArg = .ok .lastChild) :
    ∀ {xs : List Row} {t : Row} {db : DB}, LeftInv db xs t → AllBelow cfg posArg xs t db := by
  intro xs
  induction xs with
  | nil => intro t db h; exact ⟨rfl, h.consistent, rfl, rfl, .nil _⟩
  | cons x xs ih =>
    intro t db h
    obtain ⟨x0, hx0, res, res0, hk, hr, e, e0, hdb, htgt, h1, h2, hd, p, hp, hf⟩ := h.step ho hprep
    have e1 : db.get? x.pk = some x0 := (get?_eq_some h.consistent.toNI).2 ⟨hx0, hk⟩
    have e2 : db.get? t.pk = some t := (get?_eq_some h.consistent.toNI).2 ⟨h.target, rfl⟩
    obtain ⟨a1, a2, a3, a4, a5⟩ := ih h2
    rw [h1] at a1 a5
    have em : moveLoop cfg posArg (x :: xs) t db = moveLoop cfg posArg xs res.target res.db := by
      conv => lhs; unfold moveLoop
      simp only [e]
    have ef : moveFresh cfg posArg t.pk (x.pk :: xs.map Row.pk) db = moveFresh cfg posArg t.pk (xs.map Row.pk) res0.db := by
      conv => lhs; unfold moveFresh
      rw [e1, e2]
      simp only [e0]
    refine ⟨by rw [em, List.map_cons, ef, a1, hdb], by rw [em]; exact a2, by rw [em]; exact a3.trans hd, by rw [em]; exact a4, ?_⟩
    rw [em, List.map_cons]
    exact .cons hp hr (hf ▸ a5)

/-- **Nodes after the target that follow each other go below it**, with the objects fetched before. -/
theorem right_loop (ho : cfg.ordered = false) {posArg : Option Pos} (hprep : preparePosForMove cfg.ordered posArg = .ok .lastChild) :
    ∀ {xs : List Row} {t : Row} {db : DB}, RightInv db xs t → AllBelow cfg posArg xs t db := by
  intro xs
  induction xs with
  | nil => intro t db h; exact ⟨rfl, h.consistent, rfl, rfl, .nil _⟩
  | cons x xs ih =>
    intro t db h
    obtain ⟨hx, res, hr, e, h1, h2, hd, p, hp, hf⟩ := h.step ho hprep
    have e1 : db.get? x.pk = some x := (get?_eq_some h.consistent.toNI).2 ⟨hx, rfl⟩
    have e2 : db.get? t.pk = some t := (get?_eq_some h.consistent.toNI).2 ⟨h.target, rfl⟩
    obtain ⟨a1, a2, a3, a4, a5⟩ := ih h2
    rw [h1] at a1 a5
    have em : moveLoop cfg posArg (x :: xs) t db = moveLoop cfg posArg xs res.target res.db := by
      conv => lhs; unfold moveLoop
      simp only [e]
    have ef : moveFresh cfg posArg t.pk (x.pk :: xs.map Row.pk) db = moveFresh cfg posArg t.pk (xs.map Row.pk) res.db := by
      conv => lhs; unfold moveFresh
      rw [e1, e2]
      simp only [e]
    refine ⟨by rw [em, List.map_cons, ef, a1], by rw [em]; exact a2, by rw [em]; exact a3.trans hd, by rw [em]; exact a4, ?_⟩
    rw [em, List.map_cons]
    exact .cons hp hr (hf ▸ a5)

/-- the loop with objects fetched anew, wherever the nodes are -/
theorem fresh_loop (ho : cfg.ordered = false) {posArg : Option Pos} {pos : Pos} (hprep : preparePosForMove cfg.ordered posArg = .ok pos) {t : Nat} :
    ∀ {xs : List Nat} {db : DB}, Consistent db → t ∈ db.rows.map Row.pk → (∀ x ∈ xs, x ∈ db.rows.map Row.pk) →
      Consistent (moveFresh cfg posArg t xs db).1 ∧ data (moveFresh cfg posArg t xs db).1.rows = data db.rows ∧
      Forest.LoopOut pos t xs (forest db) (forest (moveFresh cfg posArg t xs db).1) (moveFresh cfg posArg t xs db).2 (fun _ _ => False) := by
  intro xs
  induction xs with
  | nil => intro db h _ _; exact ⟨h, rfl, .nil⟩
  | cons x xs ih =>
    intro db h ht hx
    have hn := h.toNI
    obtain ⟨t0, ht0, rfl⟩ := List.mem_map.1 ht
    obtain ⟨x0, hx0, rfl⟩ := List.mem_map.1 (hx x (List.mem_cons_self ..))
    have e1 : db.get? x0.pk = some x0 := (get?_eq_some hn).2 ⟨hx0, rfl⟩
    have e2 : db.get? t0.pk = some t0 := (get?_eq_some hn).2 ⟨ht0, rfl⟩
    unfold moveFresh
    rw [e1, e2]
    simp only
    by_cases hr : (forest db).MoveRefused x0.pk t0.pk pos
    · rw [move_refused h hx0 ht0 hprep ((refused_iff h hx0 ht0 pos).2 hr)]
      exact ⟨h, rfl, .stop (Or.inl ⟨rfl, hr⟩)⟩
    · obtain ⟨res, e, hm⟩ := move_unsorted h ho hx0 ht0 (cached := none) (by rintro p ⟨⟩) (by rw [ho] at hprep; exact hprep)
        (fun hr' => hr ((refused_iff h hx0 ht0 pos).1 hr'))
      rw [e]
      have hkeys : res.db.rows.map Row.pk = db.rows.map Row.pk := by
        have := congrArg (List.map Prod.fst) hm.data
        simpa [data, List.map_map, Function.comp_def] using this
      obtain ⟨a1, a2, a3⟩ := ih (db := res.db) hm.inv (by rw [hkeys]; exact ht) (fun y hy => by rw [hkeys]; exact hx y (List.mem_cons_of_mem _ hy))
      refine ⟨a1, a2.trans hm.data, .cons ((mem_forest h ht0).2 rfl) hr ?_⟩
      rw [forest_eq hn, ← hm.forest, ← forest_eq hm.inv.toNI]
      exact a3

end Verif.NS
