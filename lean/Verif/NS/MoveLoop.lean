/-
NS: moving several nodes one after the other, with objects fetched before.
-/
import Verif.Props.Fresh
import Verif.NS.Concurrent
import Verif.Height
import Verif.NS.Nav

namespace Verif.NS

variable {cfg : Cfg} {db db' : DB}

/-- `for node in nodes: objects.move(node, target, pos)` (ns_tree.py:257-379): the objects `nodes` are those fetched before, `move` refreshes `target` and with it forgets the cached
parent (models.py:110-112).  An exception ends the loop. -/
def moveLoop (cfg : Cfg) (pos : Option Pos) : List Row → Row → DB → DB × Option Err
  | [], _, db => (db, none)
  | x :: xs, t, db => match move cfg db x t none pos with
    | .error e => (db, some e)
    | .ok res => moveLoop cfg pos xs res.target res.db

/-- the same with all objects fetched anew for every move -/
def moveFresh (cfg : Cfg) (pos : Option Pos) (t : Nat) : List Nat → DB → DB × Option Err
  | [], db => (db, none)
  | k :: ks, db => match db.get? k, db.get? t with
    | some x, some t' => match move cfg db x t' none pos with
      | .error e => (db, some e)
      | .ok res => moveFresh cfg pos t ks res.db
    | _, _ => (db, some .doesNotExist)

/-! ### Objects that are out of date -/

/-- the same node with the same number of descendants: all that `move` needs of the node to be moved, apart from the test whether the target is below it -/
structure Alike (a b : Row) : Prop where
  pk : a.pk = b.pk
  vals : a.vals = b.vals
  width : a.rgt - a.lft = b.rgt - b.lft

theorem Alike.refl (a : Row) : Alike a a := ⟨rfl, rfl, rfl⟩

theorem moveVars_alike {a b : Row} (h : a.pk = b.pk) (t : Row) (pos : Pos) : moveVars db a t pos = moveVars db b t pos := by
  unfold moveVars
  rw [h]

theorem moveVars_tree {x t t' : Row} {pos pos' : Pos} {parent : Option Row} (e : moveVars db x t pos = .ok (pos', t', parent)) : t'.tree = t.tree := by
  unfold moveVars at e
  split at e
  · split at e
    · cases e
    · split at e
      · cases e; rfl
      · split at e
        · cases e
        · rename_i last hl
          cases e
          exact children_tree (List.mem_of_getLast? hl)
  · cases e; rfl

theorem moveTo_alike {a b : Row} (h : Alike a b) (t ot : Row) (parent cached : Option Row) (pos : Pos) : moveTo db a t ot parent cached pos = moveTo db b t ot parent cached pos := by
  unfold moveTo
  have : makeHole db a t parent cached pos = makeHole db b t parent cached pos := by
    unfold makeHole
    rw [h.width]
  rw [this, h.pk]

/-- A move that works for the row of a node works for an object with the same number of descendants, if its tree is not that of the target, or it is to go next to a root. -/
theorem move_alike {x x0 t : Row} (ha : Alike x x0) {pos : Pos} (hT : x.tree ≠ t.tree ∨ (isChildPos pos = false ∧ t.lft ≤ x.lft)) {posArg : Option Pos} (hprep : preparePosForMove cfg.ordered posArg = .ok pos) {res0 : MoveResult}
    (e0 : move cfg db x0 t none posArg = .ok res0) : ∃ res, move cfg db x t none posArg = .ok res ∧ res.db = res0.db ∧ res.target = res0.target := by
  unfold move at e0 ⊢
  rw [hprep] at e0 ⊢
  simp only at e0 ⊢
  · rw [moveVars_alike ha.pk, ha.pk]
    split at e0
    · cases e0
    · rename_i pos1 t1 parent ev
      have ht1 := moveVars_tree ev
      have ht2 : isChildPos pos = false → t1 = t := by
        intro hc
        unfold moveVars at ev
        rw [if_neg (by rw [hc]; simp)] at ev
        cases ev; rfl
      unfold moveFrom at e0 ⊢
      have hd : ¬ t1.isDescendantOf x = true := by
        unfold Row.isDescendantOf
        intro h
        simp only [Bool.and_eq_true, beq_iff_eq, decide_eq_true_eq] at h
        rcases hT with hT | ⟨hc, hl⟩
        · exact hT (by rw [← ht1]; exact h.1.1.symm)
        · rw [ht2 hc] at h
          omega
      rw [if_neg hd]
      split at e0
      · cases e0
      · have : moveNoop db x t1 pos1 = moveNoop db x0 t1 pos1 := by unfold moveNoop; rw [ha.pk]
        rw [this, ha.vals]
        split at e0
        · cases e0
        · cases e0; exact ⟨_, rfl, rfl, rfl⟩
        · split at e0
          · cases e0
          · split at e0
            · cases e0
            · rw [moveTo_alike ha]
              exact ⟨res0, e0, rfl, rfl⟩

/-! ### What a move leaves alone -/

theorem gapRow_pk (T s o : Int) (r : Row) : (gapRow T s o r).pk = r.pk := by unfold gapRow; split <;> rfl

theorem gapRow_tree (T s o : Int) (r : Row) : (gapRow T s o r).tree = r.tree := by unfold gapRow; split <;> rfl

/-- the hole is made by shifting numbers -/
theorem makeHole_frame {x t : Row} {parent cached : Option Row} {pos : Pos} (hin : parent.isSome = true ∨ t.lft ≠ 1) {T np : Int}
    (h : makeHole db x t parent cached pos = .ok (db', T, np)) : ∃ s, db' = alterGap db t.tree s (x.rgt - x.lft + 1) := by
  unfold makeHole at h
  simp only at h
  split at h
  · cases h; exact ⟨_, rfl⟩
  · split at h
    · rename_i hroot
      rcases hin with h' | h'
      · simp at h'
      · exact absurd (by simpa [Row.isRoot] using hroot) h'
    · split at h
      · split at h
        · cases h
        · cases h
        · cases h; exact ⟨_, rfl⟩
      · cases h; exact ⟨_, rfl⟩
      · cases h; exact ⟨_, rfl⟩
      · cases h

/-- Shifting numbers up does not bring a row into the range of another one. -/
theorem gapRow_outside {T s o : Int} (ho : 0 ≤ o) {x r : Row} (hlr : x.lft ≤ x.rgt) (hlr' : r.lft ≤ r.rgt) (h : ¬ (r.tree = x.tree ∧ x.lft ≤ r.lft ∧ r.lft ≤ x.rgt)) :
    ¬ ((gapRow T s o r).tree = (gapRow T s o x).tree ∧ (gapRow T s o x).lft ≤ (gapRow T s o r).lft ∧ (gapRow T s o r).lft ≤ (gapRow T s o x).rgt) := by
  rw [gapRow_tree, gapRow_tree]
  rintro ⟨h1, h2, h3⟩
  refine h ⟨h1, ?_⟩
  have el : ∀ a : Row, a.lft ≤ a.rgt → (gapRow T s o a).lft = if s ≤ a.lft ∧ a.tree = T then a.lft + o else a.lft := by
    intro a ha
    unfold gapRow
    by_cases e : a.tree = T <;> by_cases e1 : s ≤ a.lft <;> by_cases e2 : s ≤ a.rgt <;> simp [e, e1, e2] <;> omega
  have er : ∀ a : Row, (gapRow T s o a).rgt = if s ≤ a.rgt ∧ a.tree = T then a.rgt + o else a.rgt := by
    intro a
    unfold gapRow
    split <;> rfl
  rw [el x hlr, el r hlr'] at h2
  rw [el r hlr', er] at h3
  rw [h1] at h2 h3
  by_cases hT : x.tree = T
  · simp only [hT, and_true] at h2 h3
    constructor <;> (repeat' split at h2) <;> (repeat' split at h3) <;> omega
  · simp only [hT, and_false, if_false] at h2 h3
    exact ⟨h2, h3⟩

theorem moveTo_tree (hn : NI db.rows) {x t ot : Row} (hx : x ∈ db.rows) {parent cached : Option Row} {pos : Pos}
    (hin : parent.isSome = true ∨ t.lft ≠ 1) {res : MoveResult} (h : moveTo db x t ot parent cached pos = .ok res) {r : Row} (hr : r ∈ db.rows)
    (hxr : ¬ (r.tree = x.tree ∧ x.lft ≤ r.lft ∧ r.lft ≤ x.rgt)) : ∃ r' ∈ res.db.rows, r'.pk = r.pk ∧ r'.tree = r.tree := by
  unfold moveTo at h
  split at h
  · cases h
  · rename_i db1 T np e1
    have hlr := hn.lr x hx
    have hlr' := hn.lr r hr
    split at h
    · cases h
    · rename_i x1 ex
      have hxm : x1 ∈ db1.rows := List.mem_of_find?_eq_some ex
      have hxk : x1.pk = x.pk := by have := List.find?_some ex; simpa using this
      have h1 : ∃ r1 ∈ db1.rows, r1.pk = r.pk ∧ r1.tree = r.tree ∧ ¬ (r1.tree = x1.tree ∧ x1.lft ≤ r1.lft ∧ r1.lft ≤ x1.rgt) := by
        obtain ⟨s, rfl⟩ := makeHole_frame hin e1
        obtain ⟨y, hy, rfl⟩ := List.mem_map.1 hxm
        rw [gapRow_pk] at hxk
        rw [hn.pk_inj hy hx hxk]
        exact ⟨_, List.mem_map_of_mem hr, gapRow_pk .., gapRow_tree .., gapRow_outside (by omega) (by omega) (by omega) hxr⟩
      obtain ⟨r1, hr1, hk, htr, hout⟩ := h1
      simp only at h
      split at h
      · cases h
        refine ⟨_, List.mem_map_of_mem (List.mem_map_of_mem hr1), ?_, ?_⟩
        · rw [gapRow_pk]; unfold jumpRow; rw [if_neg hout]; exact hk
        · rw [gapRow_tree]; unfold jumpRow; rw [if_neg hout]; exact htr
      · cases h

/-- **A move leaves the nodes outside the moved branch in their trees**, unless it is to go next to a root. -/
theorem move_tree (hn : NI db.rows) {x t : Row} (hx : x ∈ db.rows) (ht : t ∈ db.rows) {posArg : Option Pos} {pos : Pos}
    (hprep : preparePosForMove cfg.ordered posArg = .ok pos) (hin : isChildPos pos = true ∨ t.lft ≠ 1) {res : MoveResult} (h : move cfg db x t none posArg = .ok res)
    {r : Row} (hr : r ∈ db.rows) (hxr : ¬ (r.tree = x.tree ∧ x.lft ≤ r.lft ∧ r.lft ≤ x.rgt)) : ∃ r' ∈ res.db.rows, r'.pk = r.pk ∧ r'.tree = r.tree := by
  unfold move at h
  rw [hprep] at h
  simp only at h
  split at h
  · cases h
  · rename_i pos1 t1 parent ev
    have hv : (parent.isSome = true ∧ pos1 = .lastChild) ∨ t1.lft ≠ 1 := by
      obtain ⟨h1, h2 | h2⟩ := moveVars_inner hn ht hin ev
      · exact Or.inl ⟨h2.1, h2.2.1⟩
      · exact Or.inr h2.2
    unfold moveFrom at h
    split at h
    · cases h
    · split at h
      · cases h
      · cases h
        exact ⟨r, hr, rfl, rfl⟩
      · split at h
        · cases h
        · rename_i pos2 t2 es
          split at h
          · cases h
          · rename_i pos3 t3 er
            refine moveTo_tree hn hx ?_ h hr hxr
            rcases hv with ⟨h2, rfl⟩ | h2
            · exact Or.inl h2
            · obtain ⟨h3, h4⟩ := resolveSorted_inner hn h2 es
              exact Or.inr (resolvePos_inner hn h4 er).2

/-! ### Branches that a move does not touch -/

/-- A node above neither the moved one nor its new place keeps its descendants. -/
theorem desc_move {F : Forest} {x y : Nat} {q : Option Nat} {s : Slot} (hx : ¬ F.Desc y x) (hq : q ≠ some y) (hd : ∀ k, q = some k → ¬ F.Desc y k) {z : Nat} :
    (F.move x q s).Desc y z ↔ F.Desc y z := by
  have at_ : ∀ k, (k = y ∨ F.Desc y k) → (F.move x q s) (some k) = F (some k) := by
    intro k hk
    have hne : some k ≠ q := by
      rintro rfl
      rcases hk with rfl | hk
      · exact hq rfl
      · exact hd k rfl hk
    unfold Forest.move Forest.put
    rw [if_neg hne]
    unfold Forest.remove
    rw [List.filter_eq_self]
    intro a ha
    simp only [ne_eq, decide_eq_true_eq]
    rintro rfl
    rcases hk with rfl | hk
    · exact hx (.child ha)
    · exact hx (.step hk ha)
  constructor
  · intro h
    induction h with
    | child h => exact .child (at_ y (Or.inl rfl) ▸ h)
    | step _ h ih => exact .step ih (at_ _ (Or.inr ih) ▸ h)
  · intro h
    induction h with
    | child h => exact .child ((at_ y (Or.inl rfl)).symm ▸ h)
    | step h1 h ih => exact .step ih ((at_ _ (Or.inr h1)).symm ▸ h)

/-- the number of descendants, from the forest -/
theorem width_eq (h : Consistent db) (h' : Consistent db') (hk : data db'.rows = data db.rows) {y y' : Row} (hy : y ∈ db.rows) (hy' : y' ∈ db'.rows) (hpk : y'.pk = y.pk)
    (hd : ∀ z, (PF db'.rows).Desc y.pk z ↔ (PF db.rows).Desc y.pk z) : y'.rgt - y'.lft = y.rgt - y.lft := by
  have e1 := count_encl h hy
  have e2 := count_encl h' hy'
  have key : ∀ {d : DB} (_ : Consistent d) {r : Row} (_ : r ∈ d.rows) (z : Nat), z ∈ (d.rows.filter (fun a => decide (encl r a))).map Row.pk ↔ (z ∈ d.rows.map Row.pk ∧ (PF d.rows).Desc r.pk z) := by
    intro d hd r hr z
    constructor
    · intro hz
      obtain ⟨a, ha, rfl⟩ := List.mem_map.1 hz
      obtain ⟨ha, hea⟩ := List.mem_filter.1 ha
      exact ⟨List.mem_map_of_mem ha, (desc_PF hd.toNI hr ha).2 (by simpa using hea)⟩
    · rintro ⟨hz, hdz⟩
      obtain ⟨a, ha, rfl⟩ := List.mem_map.1 hz
      exact List.mem_map_of_mem (List.mem_filter.2 ⟨ha, by simpa using (desc_PF hd.toNI hr ha).1 hdz⟩)
  have hpks : db'.rows.map Row.pk = db.rows.map Row.pk := by
    have := congrArg (List.map Prod.fst) hk
    simpa [data, List.map_map, Function.comp_def] using this
  have nd : ∀ {d : DB} (_ : Consistent d) (r : Row), ((d.rows.filter (fun a => decide (encl r a))).map Row.pk).Nodup := fun hd r =>
    (hd.toNI.pks).sublist (List.Sublist.map _ List.filter_sublist)
  have hlen : ((db'.rows.filter (fun a => decide (encl y' a))).map Row.pk).length = ((db.rows.filter (fun a => decide (encl y a))).map Row.pk).length := by
    refine List.Perm.length_eq ((List.perm_ext_iff_of_nodup (nd h' y') (nd h y)).2 (fun z => ?_))
    rw [key h' hy', key h hy, hpks, hpk, hd]
  rw [List.length_map, List.length_map] at hlen
  rw [hlen] at e2
  omega

/-- what holds before every move of the loop -/
structure LoopInv (pos : Pos) (db : DB) (nodes : List Row) (t : Row) : Prop where
  consistent : Consistent db
  stored : ∀ x ∈ nodes, ∃ r ∈ db.rows, Alike x r
  apart : nodes.Pairwise (fun a b => b.pk ≠ a.pk ∧ ¬ (PF db.rows).Desc b.pk a.pk)
  target : t ∈ db.rows
  above : ∀ x ∈ nodes, x.pk ≠ t.pk ∧ ¬ (PF db.rows).Desc x.pk t.pk
  one : ∀ x ∈ nodes, 1 ≤ x.lft
  other : (isChildPos pos = false ∧ t.pk ∈ PF db.rows none) ∨ ((isChildPos pos = true ∨ t.pk ∉ PF db.rows none) ∧ ∀ x ∈ nodes, x.tree ≠ t.tree)

theorem root_PF (h : NI db.rows) {t : Row} (ht : t ∈ db.rows) : t.pk ∈ PF db.rows none ↔ t.lft = 1 := by
  rw [← rootNodes_PF h, List.mem_map]
  constructor
  · rintro ⟨r, hr, e⟩
    obtain ⟨h1, h2⟩ := mem_rootNodes.1 hr
    rw [← h.pk_inj h1 ht e]
    exact h2
  · exact fun e => ⟨t, mem_rootNodes.2 ⟨ht, e⟩, rfl⟩

theorem asked_move {F : Forest} {x t : Nat} (hne : t ≠ x) {p : Option Nat} {pos : Pos} (hpos : IsPlainPos pos) : ∃ s, F.moveAsked x p t pos = F.move x (pos.dest p t) s := by
  rcases hpos with (rfl | rfl | rfl | rfl) | rfl | rfl
  · exact ⟨_, rfl⟩
  · exact ⟨.before t, by simp [Forest.moveAsked, Forest.sibMove, hne, Pos.dest, Pos.isChild]⟩
  · exact ⟨.after t, by simp [Forest.moveAsked, Forest.sibMove, hne, Pos.dest, Pos.isChild]⟩
  · exact ⟨_, rfl⟩
  · exact ⟨_, rfl⟩
  · exact ⟨_, rfl⟩

/-- one move of the loop -/
theorem LoopInv.step {posArg : Option Pos} {pos : Pos} (hprep : preparePosForMove cfg.ordered posArg = .ok pos) {x t : Row} {xs : List Row} (h : LoopInv pos db (x :: xs) t) :
    ∃ x0 ∈ db.rows, ∃ res res0, x0.pk = x.pk ∧ ¬ (forest db).MoveRefused x.pk t.pk pos ∧ move cfg db x t none posArg = .ok res ∧ move cfg db x0 t none posArg = .ok res0 ∧ res.db = res0.db ∧
      res.target = res0.target ∧ res.target.pk = t.pk ∧ LoopInv pos res.db xs res.target ∧ data res.db.rows = data db.rows ∧
      (cfg.ordered = false → ∃ p, t.pk ∈ forest db p ∧ forest res.db = (forest db).moveAsked x.pk p t.pk pos) := by
  have hx := h.stored x (List.mem_cons_self ..)
  obtain ⟨x0, hx0, hxa⟩ := hx
  have hn := h.consistent.toNI
  obtain ⟨hxt, hxd⟩ := h.above x (List.mem_cons_self ..)
  have hr : ¬ (forest db).MoveRefused x0.pk t.pk pos := by
    rw [forest_eq hn, ← hxa.pk]
    rintro (h1 | ⟨_, h1⟩)
    · exact hxd h1
    · exact hxt h1.symm
  have : ∃ res0 s, move cfg db x0 t none posArg = .ok res0 ∧ Consistent res0.db ∧ (res0.target ∈ res0.db.rows ∧ res0.target.pk = t.pk) ∧ data res0.db.rows = data db.rows ∧
      PF res0.db.rows = (PF db.rows).move x0.pk (pos.dest (par db.rows t) t.pk) s ∧
      (cfg.ordered = false → ∃ p, t.pk ∈ forest db p ∧ forest res0.db = (forest db).moveAsked x0.pk p t.pk pos) := by
    have hr' : ¬ Refused x0 t pos := fun hr' => hr ((refused_iff h.consistent hx0 h.target pos).1 hr')
    cases ho : cfg.ordered with
    | false =>
      obtain ⟨res, e, hm⟩ := move_unsorted h.consistent ho hx0 h.target (cached := none) (by rintro p ⟨⟩) (by rw [ho] at hprep; exact hprep) hr'
      obtain ⟨s, hs⟩ := asked_move (F := PF db.rows) (x := x0.pk) (t := t.pk) (by rw [← hxa.pk]; exact hxt.symm) (p := par db.rows t) (pos := pos)
        (by rw [ho] at hprep; exact (prepMove_arg hprep).1)
      refine ⟨res, s, e, hm.inv, hm.target, hm.data, by rw [hm.forest, hs], fun _ => ⟨par db.rows t, ?_, ?_⟩⟩
      · exact (mem_forest h.consistent h.target).2 rfl
      · rw [forest_eq hm.inv.toNI, forest_eq hn]; exact hm.forest
    | true =>
      obtain ⟨res, s, l, e, hm, _⟩ := move_sorted h.consistent ho hx0 h.target (cached := none) (by rw [ho] at hprep; exact hprep) hr'
      exact ⟨res, s, e, hm.inv, hm.target, hm.data, hm.forest, fun h => by cases h⟩
  obtain ⟨res0, s, e0, hc, ⟨ht1, ht2⟩, hdata, hforest, hf⟩ := this
  obtain ⟨res, e, hdb, htgt⟩ := move_alike hxa (pos := pos) (by
      rcases h.other with ⟨h1, h2⟩ | ⟨_, h2⟩
      · have := h.one x (List.mem_cons_self ..)
        exact Or.inr ⟨h1, by rw [(root_PF hn h.target).1 h2]; exact this⟩
      · exact Or.inl (h2 x (List.mem_cons_self ..))) hprep e0
  have htree : (isChildPos pos = true ∨ t.pk ∉ PF db.rows none) → res0.target.tree = t.tree := by
    intro hin'
    have hin : isChildPos pos = true ∨ t.lft ≠ 1 := hin'.imp id (fun h' e => h' ((root_PF hn h.target).2 e))
    have hout : ¬ (t.tree = x0.tree ∧ x0.lft ≤ t.lft ∧ t.lft ≤ x0.rgt) := by
      rintro ⟨h1, h2, h3⟩
      have hne : x0 ≠ t := fun e => hxt (by rw [hxa.pk, e])
      have hnd : ¬ encl x0 t := fun e => hxd (by rw [hxa.pk]; exact (desc_PF hn hx0 h.target).2 e)
      have := hn.dist t h.target x0 hx0 hne.symm h1
      have hlt : x0.lft < t.lft := by omega
      exact hnd ⟨h1.symm, hlt, hn.lam x0 hx0 t h.target h1.symm hlt (by omega)⟩
    obtain ⟨t', ht', hk, hT⟩ := move_tree hn hx0 h.target hprep hin e0 h.target hout
    rw [← hc.toNI.pk_inj ht' ht1 (by rw [hk, ht2])]
    exact hT
  -- a node of the list, or the target, that is not above the moved node keeps its descendants
  have hdest : ∀ y, y ≠ t.pk → ¬ (PF db.rows).Desc y t.pk → pos.dest (par db.rows t) t.pk ≠ some y ∧ ∀ k, pos.dest (par db.rows t) t.pk = some k → ¬ (PF db.rows).Desc y k := by
    intro y h1 h2
    have hmem : t.pk ∈ PF db.rows (par db.rows t) := (mem_PF hn).2 ⟨t, h.target, rfl, rfl⟩
    unfold Pos.dest
    split
    · exact ⟨fun e => h1 (Option.some.inj e).symm, fun k hk => by cases hk; exact h2⟩
    · refine ⟨fun e => h2 (.child (e ▸ hmem)), fun k hk hd => h2 (.step hd (hk ▸ hmem))⟩
  have hkeep : ∀ y ∈ xs, ∀ z, (PF res0.db.rows).Desc y.pk z ↔ (PF db.rows).Desc y.pk z := by
    intro y hy z
    obtain ⟨h1, h2⟩ := h.above y (List.mem_cons_of_mem _ hy)
    obtain ⟨h3, h4⟩ := hdest _ h1 h2
    rw [hforest]
    exact desc_move (by rw [← hxa.pk]; exact ((List.pairwise_cons.1 h.apart).1 y hy).2) h3 h4
  refine ⟨x0, hx0, res, res0, hxa.pk.symm, by rw [hxa.pk]; exact hr, e, e0, hdb, htgt, by rw [htgt]; exact ht2, ?_, by rw [hdb]; exact hdata, ?_⟩
  · rw [hdb, htgt]
    refine ⟨hc, ?_, ?_, ht1, ?_, ?_, ?_⟩
    · intro y hy
      obtain ⟨y0, hy0, hya⟩ := h.stored y (List.mem_cons_of_mem _ hy)
      have : (y0.pk, y0.vals) ∈ data res0.db.rows := by rw [hdata]; exact List.mem_map_of_mem (f := fun r : Row => (r.pk, r.vals)) hy0
      obtain ⟨y1, hy1, ey⟩ := List.mem_map.1 this
      obtain ⟨ek, ev⟩ := Prod.mk.inj ey
      refine ⟨y1, hy1, hya.pk.trans ek.symm, hya.vals.trans ev.symm, ?_⟩
      rw [hya.width]
      refine (width_eq h.consistent hc hdata hy0 hy1 ek ?_).symm
      rw [← hya.pk]
      exact hkeep y hy
    · refine List.Pairwise.imp_of_mem ?_ (List.pairwise_cons.1 h.apart).2
      rintro a b ha hb ⟨h1, h2⟩
      exact ⟨h1, fun h3 => h2 ((hkeep b hb _).1 h3)⟩
    · intro y hy
      obtain ⟨h1, h2⟩ := h.above y (List.mem_cons_of_mem _ hy)
      rw [ht2]
      exact ⟨h1, fun h3 => h2 ((hkeep y hy _).1 h3)⟩
    · exact fun y hy => h.one y (List.mem_cons_of_mem _ hy)
    · rcases h.other with ⟨h1, h2⟩ | ⟨h1, h2⟩
      · left
        refine ⟨h1, ?_⟩
        rw [ht2, hforest]
        exact Forest.subset_move (by rw [← hxa.pk]; exact hxt.symm) h2
      · right
        refine ⟨h1.imp id ?_, fun y hy => ?_⟩
        · intro h' h''
          apply h'
          rw [ht2, hforest] at h''
          rcases Forest.mem_move h'' with ⟨h3, _⟩ | ⟨_, h3⟩
          · exact absurd h3.symm (hxa.pk ▸ hxt)
          · exact h3
        · rw [htree h1]
          exact h2 y (List.mem_cons_of_mem _ hy)
  · intro ho
    rw [hdb, hxa.pk]
    exact hf ho

/-- **The loop with the objects fetched before does the same as that with objects fetched anew.** -/
theorem moveLoop_fresh {posArg : Option Pos} {pos : Pos} (hprep : preparePosForMove cfg.ordered posArg = .ok pos) :
    ∀ {xs : List Row} {t : Row} {db : DB}, LoopInv pos db xs t → moveLoop cfg posArg xs t db = moveFresh cfg posArg t.pk (xs.map Row.pk) db := by
  intro xs
  induction xs with
  | nil => intros; rfl
  | cons x xs ih =>
    intro t db h
    obtain ⟨x0, hx0, res, res0, hk, _, e, e0, hdb, htgt, h1, h2, _⟩ := h.step hprep
    have e1 : db.get? x.pk = some x0 := (get?_eq_some h.consistent.toNI).2 ⟨hx0, hk⟩
    have e2 : db.get? t.pk = some t := (get?_eq_some h.consistent.toNI).2 ⟨h.target, rfl⟩
    rw [List.map_cons]
    unfold moveLoop moveFresh
    rw [e1, e2]
    simp only [e, e0]
    rw [← h1, ← hdb]
    exact ih h2

end Verif.NS
