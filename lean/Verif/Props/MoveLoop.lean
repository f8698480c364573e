/-
C79: moving several nodes in a loop, with objects fetched before it.
-/
import Verif.SpecMoveLoop
import Verif.MP.MoveLoop
import Verif.NS.MoveLoop
import Verif.AL.MoveLoop
import Verif.LT.MoveLoop

namespace Verif

namespace MP

variable {cfg : Cfg} {db : DB}

/-- what the loop leaves behind -/
structure LoopGood (cfg : Cfg) (db : DB) (pos : Pos) (t : Nat) (xs : List Nat) (out : DB × Option Err) : Prop where
  consistent : Consistent cfg out.1
  data : data out.1.rows = data db.rows
  out : Forest.LoopOut pos t xs (forest cfg db) (forest cfg out.1) out.2
    (fun _ e => e = .pathOverflow ∧ ∃ q, t ∈ forest cfg out.1 q ∧ LastTaken cfg out.1 (pos.dest q t))

theorem loop_good (hok : cfg.Ok) (ho : cfg.ordered = false) {posArg : Option Pos} {pos : Pos} (hprep : preparePosForMove false posArg = .ok pos) :
    ∀ {xs : List Row} {t t0 : Row} {db : DB}, LoopInv cfg pos db xs t t0 → LoopGood cfg db pos t0.pk (xs.map Row.pk) (moveLoop cfg posArg xs t db) := by
  intro xs
  induction xs with
  | nil => intro t t0 db h; exact ⟨(consistent_iff hok).2 h.inv, rfl, .nil⟩
  | cons x xs ih =>
    intro t t0 db h
    obtain ⟨x0, hx0, hpk, hstep⟩ := h.step hok ho hprep
    have hcons := (consistent_iff hok).2 h.inv
    have hpl : IsPlainPos pos := by
      have := plain_of_prep hprep
      cases pos <;> simp [isPlainPos, IsPlainPos, IsSibPos] at this ⊢
    have harg : posArg = some pos ∨ (posArg = none ∧ pos = .lastSibling) := by
      unfold preparePosForMove preparePosVar at hprep
      cases posArg with
      | none => exact Or.inr ⟨rfl, by cases (show (Except.ok Pos.lastSibling : Except Err Pos) = .ok pos from hprep); rfl⟩
      | some q =>
        left
        simp only at hprep
        split at hprep
        · cases hprep
        · split at hprep
          · cases hprep
          · split at hprep
            · cases hprep
            · cases hprep; rfl
    have hout : ToEnd pos ∨ ¬ Under (destPath cfg pos t0) x0.path := by
      refine h.out.imp id (fun h' => ?_)
      obtain ⟨r, hr, ha⟩ := h.stored x (List.mem_cons_self ..)
      have : r = x0 := h.inv.inv.pk_inj hr hx0 (by rw [hpk, ha.pk])
      rw [← this, ← ha.path]
      exact h' x (List.mem_cons_self ..)
    rw [List.map_cons, ← hpk]
    unfold moveLoop
    by_cases hr : (forest cfg db).MoveRefused x0.pk t0.pk pos
    · have hr' := (refused_iff hok h.inv hx0 h.target pos).2 hr
      have e := ((move_unsorted hok h.inv ho hx0 h.target hprep (moveRoom_loop hok h.inv hx0 hout)).resolve_right (fun h' => h'.1 hr')).2
      rcases hstep with ⟨e', h1, h2⟩ | ⟨res, res0, t1, h1, h2, h3, h4, h5⟩
      · rw [e] at h2
        cases h2
        rw [h1]
        exact ⟨hcons, rfl, .stop (Or.inl ⟨rfl, hr⟩)⟩
      · rw [e] at h2; cases h2
    · obtain ⟨p, hp, hm⟩ := C07_move_free hok hcons ho hx0 h.target hpl harg hr
      have hfree : x0.pk ∉ forest cfg db (pos.dest p t0.pk) ∨ pos = .lastSibling ∨ pos = .lastChild ∨
          ((pos = .left ∨ pos = .right) ∧ ¬ Stands (forest cfg db p) t0.pk x0.pk) := by
        rcases hout with (h1 | h1) | h1
        · exact Or.inr (Or.inl h1)
        · exact Or.inr (Or.inr (Or.inl h1))
        · left
          intro hin
          have hpp : p = par cfg db.rows t0 := by
            rw [forest_eq h.inv hok] at hp
            obtain ⟨r, hr, e1, e2⟩ := (mem_PF h.inv.toPInv).1 hp
            rw [← e1, h.inv.inv.pk_inj hr h.target e2]
          rw [hpp, ← at?_dest h.inv h.target, forest_eq h.inv hok] at hin
          obtain ⟨r, hr, e1, e2⟩ := (mem_PF h.inv.toPInv).1 hin
          rw [h.inv.inv.pk_inj hr hx0 e2] at e1
          have := (par_eq_at h.inv.toPInv hok hx0 (destPath_isPar h.inv h.target pos)).1 e1
          exact h1 (this ▸ under_sib hok h.inv.toPInv hx0)
      rcases hm hfree with ⟨r, e, hg⟩ | ⟨e, hl⟩
      · rcases hstep with ⟨e', h1, h2⟩ | ⟨res, res0, t1, h1, h2, h3, h4, h5⟩
        · rw [e] at h2; cases h2
        · rw [e] at h2
          cases h2
          rw [h1]
          simp only
          have := ih h5
          rw [h4] at this
          refine ⟨this.consistent, ?_, ?_⟩
          · rw [this.data, h3]; exact hg.data
          · refine .cons hp hr ?_
            have e2 := hg.forest
            rw [← h3] at e2
            rw [← e2]
            exact this.out
      · rcases hstep with ⟨e', h1, h2⟩ | ⟨res, res0, t1, h1, h2, h3, h4, h5⟩
        · rw [e] at h2
          cases h2
          rw [h1]
          exact ⟨hcons, rfl, .stop (Or.inr ⟨rfl, p, hp, hl⟩)⟩
        · rw [e] at h2; cases h2

theorem loopInv_start (hok : cfg.Ok) (h : Inv cfg db.rows) {nodes : List Row} (hn : ∀ x ∈ nodes, x ∈ db.rows) {t : Row} (ht : t ∈ db.rows) {pos : Pos} {p : Option Nat}
    (hp : t.pk ∈ forest cfg db p) (hap : (forest cfg db).NoneBelow (nodes.map Row.pk)) (hout : (forest cfg db).Outside pos p t.pk (nodes.map Row.pk)) :
    LoopInv cfg pos db nodes t t := by
  have hP := h.toPInv
  rw [forest_eq h hok] at hp hap hout
  have hpp : p = par cfg db.rows t := by
    obtain ⟨r, hr, e1, e2⟩ := (mem_PF hP).1 hp
    rw [← e1, h.inv.pk_inj hr ht e2]
  refine ⟨h, fun x hx => ⟨x, hn x hx, .refl x⟩, ?_, ht, .refl (h.count_nonneg ht), ?_⟩
  · refine List.Pairwise.imp_of_mem ?_ (List.pairwise_map.1 hap)
    rintro a b ha hb ⟨h1, h2⟩ hpre
    exact h2 ((desc_PF hP hok (hn a ha) (hn b hb)).2 ⟨hpre, fun e => h1 (by rw [e])⟩)
  · rcases hout with h1 | h1 | ⟨q, hq, h1⟩
    · exact Or.inl (Or.inl h1)
    · exact Or.inl (Or.inr h1)
    · refine Or.inr (fun x hx hu => h1 x.pk (List.mem_map_of_mem hx) ?_)
      rw [hpp, ← at?_dest h ht] at hq
      obtain ⟨r, hr, h2, h3⟩ := (pkAt_eq_some h.inv).1 hq
      rw [← h3, desc_PF hP hok hr (hn x hx)]
      rw [show destPath cfg pos t = r.path from h2.symm] at hu
      exact ⟨hu.1, fun e => by rw [e] at hu; exact Nat.lt_irrefl _ hu.2⟩

/-- **C79 for MP** (partial: without `node_order_by`, and for the cases named by the hypotheses; see `C79_mp_flatten` and `C79_mp_first` for others).  Nodes fetched before the loop are
moved one after the other relative to one target.  No node is below an earlier one, and the place is the last one or below a parent none of whose descendants is among the nodes.
Then the loop does exactly what it does with objects fetched anew for every move, the tree is consistent, and every node is where it was asked for, up to the first one that
cannot move. -/
theorem C79_mp_partial (hok : cfg.Ok) (h : Consistent cfg db) (ho : cfg.ordered = false) {nodes : List Row} (hn : ∀ x ∈ nodes, x ∈ db.rows) {t : Row} (ht : t ∈ db.rows)
    {posArg : Option Pos} {pos : Pos} (hprep : preparePosForMove false posArg = .ok pos) {p : Option Nat} (hp : t.pk ∈ forest cfg db p)
    (hap : (forest cfg db).NoneBelow (nodes.map Row.pk)) (hout : (forest cfg db).Outside pos p t.pk (nodes.map Row.pk)) :
    moveLoop cfg posArg nodes t db = moveFresh cfg posArg t.pk (nodes.map Row.pk) db ∧ LoopGood cfg db pos t.pk (nodes.map Row.pk) (moveLoop cfg posArg nodes t db) := by
  have hi := loopInv_start hok ((consistent_iff hok).1 h) hn ht hp hap hout
  exact ⟨moveLoop_fresh hok ho hprep hi, loop_good hok ho hprep hi⟩

/-- 1 has the children 2, 3 and 6, and 3 has the child 4; 5 is a root without children -/
def loopDB : DB := ⟨[⟨1, [49], 1, 3, []⟩, ⟨2, [49, 49], 2, 0, []⟩, ⟨3, [49, 50], 2, 1, []⟩, ⟨4, [49, 50, 49], 3, 0, []⟩, ⟨6, [49, 51], 2, 0, []⟩, ⟨5, [50], 1, 0, []⟩], []⟩

theorem loopDB_consistent : Consistent exCfg loopDB := ⟨by decide, by decide, by intro p; cases p <;> decide, by decide, by decide⟩

theorem loopDB_desc {a b : Row} (ha : a ∈ loopDB.rows) (hb : b ∈ loopDB.rows) : (forest exCfg loopDB).Desc a.pk b.pk ↔ a.path <+: b.path ∧ a ≠ b := by
  have h := (consistent_iff exCfg_ok).1 loopDB_consistent
  rw [forest_eq h exCfg_ok]
  exact desc_PF h.toPInv exCfg_ok ha hb

/-- 2, 4 and 3 go below 5, each as first child; 4 is moved before its parent 3 -/
example : (forest exCfg loopDB).NoneBelow [2, 4, 3] ∧ (forest exCfg loopDB).Outside .firstChild none 5 [2, 4, 3] ∧
    (moveLoop exCfg (some .firstChild) [⟨2, [49, 49], 2, 0, []⟩, ⟨4, [49, 50, 49], 3, 0, []⟩, ⟨3, [49, 50], 2, 1, []⟩] ⟨5, [50], 1, 0, []⟩ loopDB).2 = none := by
  have d := @loopDB_desc
  have m : ∀ k q, (∃ a ∈ loopDB.rows, a.pk = k ∧ ∃ b ∈ loopDB.rows, b.pk = q ∧ ¬ (a.path <+: b.path ∧ a ≠ b)) → ¬ (forest exCfg loopDB).Desc k q := by
    rintro k q ⟨a, ha, rfl, b, hb, rfl, h⟩ h'
    exact h ((d ha hb).1 h')
  refine ⟨?_, Or.inr (Or.inr ⟨5, rfl, ?_⟩), by decide +kernel⟩
  · simp only [Forest.NoneBelow, List.pairwise_cons, List.mem_cons, List.not_mem_nil, or_false]
    refine ⟨?_, ?_, ?_, .nil⟩
    · rintro b (rfl | rfl) <;> exact ⟨by decide, m _ _ (by decide +kernel)⟩
    · rintro b rfl; exact ⟨by decide, m _ _ (by decide +kernel)⟩
    · rintro b ⟨⟩
  · simp only [List.mem_cons, List.not_mem_nil, or_false]
    rintro b (rfl | rfl | rfl) <;> exact m _ _ (by decide +kernel)

/-- **A node after its own parent in the loop** (violation): 3 and then its child 4 are to go below 5.  The object for 4 still has its old path, under which nothing is left after the
first move.  No exception is raised, 4 stays below 3, and the stored number of children of 5 counts it all the same. -/
theorem C79_mp_flatten :
    let out := moveLoop exCfg (some .lastChild) [⟨3, [49, 50], 2, 1, []⟩, ⟨4, [49, 50, 49], 3, 0, []⟩] ⟨5, [50], 1, 0, []⟩ loopDB
    Consistent exCfg loopDB ∧ out.2 = none ∧ forest exCfg out.1 (some 5) = [3] ∧ forest exCfg out.1 (some 3) = [4] ∧ ¬ Consistent exCfg out.1 ∧
      forest exCfg (moveFresh exCfg (some .lastChild) 5 [3, 4] loopDB).1 (some 5) = [3, 4] := by
  refine ⟨loopDB_consistent, by decide +kernel, by decide +kernel, by decide +kernel, ?_, by decide +kernel⟩
  intro h
  exact absurd (h.problems .wrongNumchild) (by decide +kernel)

/-- **Several children of one parent to its front** (violation): 3 and then 6 are to become the first child of 1, their parent.  The first move shifts the path of 6, the second one then
moves another node, and 6 stays at the end. -/
theorem C79_mp_first :
    let out := moveLoop exCfg (some .firstChild) [⟨3, [49, 50], 2, 1, []⟩, ⟨6, [49, 51], 2, 0, []⟩] ⟨1, [49], 1, 3, []⟩ loopDB
    Consistent exCfg loopDB ∧ out.2 = none ∧ forest exCfg out.1 (some 1) = [3, 2, 6] ∧ forest exCfg (moveFresh exCfg (some .firstChild) 1 [3, 6] loopDB).1 (some 1) = [6, 3, 2] :=
  ⟨loopDB_consistent, by decide +kernel⟩

end MP

namespace NS

variable {cfg : Cfg} {db : DB}

/-- what the loop leaves behind -/
structure LoopGood (cfg : Cfg) (db : DB) (pos : Pos) (t : Nat) (xs : List Nat) (out : DB × Option Err) : Prop where
  consistent : Consistent out.1
  data : data out.1.rows = data db.rows
  all : out.2 = none
  moved : cfg.ordered = false → Forest.MovedAll pos t xs (forest db) (forest out.1)

theorem loop_good {posArg : Option Pos} {pos : Pos} (hprep : preparePosForMove cfg.ordered posArg = .ok pos) :
    ∀ {xs : List Row} {t : Row} {db : DB}, LoopInv pos db xs t → LoopGood cfg db pos t.pk (xs.map Row.pk) (moveLoop cfg posArg xs t db) := by
  intro xs
  induction xs with
  | nil => intro t db h; exact ⟨h.consistent, rfl, rfl, fun _ => .nil _⟩
  | cons x xs ih =>
    intro t db h
    obtain ⟨x0, hx0, res, res0, hk, hr, e, e0, hdb, htgt, h1, h2, hd, hf⟩ := h.step hprep
    rw [List.map_cons]
    unfold moveLoop
    rw [e]
    simp only
    have := ih h2
    rw [h1] at this
    refine ⟨this.consistent, this.data.trans hd, this.all, fun ho => ?_⟩
    obtain ⟨p, hp, e2⟩ := hf ho
    exact .cons hp hr (e2 ▸ this.moved ho)

/-- **C79 for NS** (partial: for the cases named by the hypotheses; see `C79_ns_parent_after` and `C79_ns_same_tree` for others).  Nodes fetched before the loop are moved one after the
other relative to one target.  No node is above an earlier one, and the nodes are not in the tree of the target, or they go next to a root which is none of them.  Then the loop
does exactly what it does with objects fetched anew for every move, with `node_order_by` or without: no move fails and the tree is consistent.  Without `node_order_by` every
node is where it was asked for. -/
theorem C79_ns_partial (h : Consistent db) {nodes : List Row} (hn : ∀ x ∈ nodes, x ∈ db.rows) {t : Row} (ht : t ∈ db.rows) {posArg : Option Pos} {pos : Pos}
    (hprep : preparePosForMove cfg.ordered posArg = .ok pos) (hap : (forest db).NoneBelow (nodes.map Row.pk).reverse)
    (hot : (pos.isChild = false ∧ t.pk ∈ forest db none ∧ t.pk ∉ nodes.map Row.pk) ∨ ∀ x ∈ nodes, x.tree ≠ t.tree) :
    moveLoop cfg posArg nodes t db = moveFresh cfg posArg t.pk (nodes.map Row.pk) db ∧ LoopGood cfg db pos t.pk (nodes.map Row.pk) (moveLoop cfg posArg nodes t db) := by
  have hni := h.toNI
  have hi : LoopInv pos db nodes t := by
    rw [forest_eq hni] at hap hot
    refine ⟨h, fun x hx => ⟨x, hn x hx, .refl x⟩, ?_, ht, ?_, fun x hx => hni.one x (hn x hx), ?_⟩
    · unfold Forest.NoneBelow at hap
      rw [List.pairwise_reverse, List.pairwise_map] at hap
      exact hap.imp (fun h => ⟨h.1.symm, h.2⟩)
    · intro x hx
      rw [desc_PF hni (hn x hx) ht]
      rcases hot with ⟨_, h1, h2⟩ | h1
      · refine ⟨fun e => h2 (e ▸ List.mem_map_of_mem hx), fun e => ?_⟩
        have := (root_PF hni ht).1 h1
        have := hni.one x (hn x hx)
        unfold encl at e
        omega
      · exact ⟨fun e => h1 x hx (by rw [hni.pk_inj (hn x hx) ht e]), fun e => h1 x hx e.1⟩
    · rw [isChildPos_eq]
      by_cases hc : pos.isChild = false ∧ t.pk ∈ PF db.rows none
      · exact Or.inl hc
      · right
        refine ⟨?_, hot.resolve_left (fun h' => hc ⟨h'.1, h'.2.1⟩)⟩
        by_cases h1 : pos.isChild = true
        · exact Or.inl h1
        · exact Or.inr (fun h2 => hc ⟨by simpa using h1, h2⟩)
  exact ⟨moveLoop_fresh hprep hi, loop_good hprep hi⟩

/-- 3 and then its child 4 go below 5 -/
example : (forest exDB).NoneBelow [3, 4].reverse ∧ (moveLoop ⟨[]⟩ (some .firstChild) [⟨3, 1, 4, 7, 2, []⟩, ⟨4, 1, 5, 6, 3, []⟩] ⟨5, 2, 1, 2, 1, []⟩ exDB).2 = none ∧
    forest (moveLoop ⟨[]⟩ (some .firstChild) [⟨3, 1, 4, 7, 2, []⟩, ⟨4, 1, 5, 6, 3, []⟩] ⟨5, 2, 1, 2, 1, []⟩ exDB).1 (some 5) = [4, 3] := by
  refine ⟨?_, by decide +kernel, by decide +kernel⟩
  have hni := exDB_inv.toNI
  simp only [Forest.NoneBelow, List.reverse_cons, List.reverse_nil, List.nil_append, List.cons_append, List.pairwise_cons, List.mem_cons, List.not_mem_nil, or_false]
  refine ⟨?_, fun b hb => absurd hb (by simp), .nil⟩
  rintro b rfl
  refine ⟨by decide, ?_⟩
  rw [forest_eq hni, desc_PF hni (q := ⟨4, 1, 5, 6, 3, []⟩) (r := ⟨3, 1, 4, 7, 2, []⟩) (by decide) (by decide)]
  decide

/-- **A parent after its child in the loop** (violation): 4 and then its parent 3 are to go below 5.  The second move makes a gap for the descendants that 3 had before the loop.  No
exception is raised, and the numbers of the target's tree have a gap. -/
theorem C79_ns_parent_after :
    let out := moveLoop ⟨[]⟩ (some .lastChild) [⟨4, 1, 5, 6, 3, []⟩, ⟨3, 1, 4, 7, 2, []⟩] ⟨5, 2, 1, 2, 1, []⟩ exDB
    Consistent exDB ∧ out.2 = none ∧ ¬ Consistent out.1 := by
  refine ⟨exDB_inv, by decide +kernel, fun h => ?_⟩
  have := count_encl h (p := ⟨5, 2, 1, 8, 1, []⟩) (by decide +kernel)
  revert this
  decide +kernel

/-- 1 has the children 2, 3 and 6, 2 has the child 7 and 3 the children 4 and 5 -/
def loopDB : DB := { rows := [⟨1, 1, 1, 14, 1, []⟩, ⟨2, 1, 2, 5, 2, []⟩, ⟨7, 1, 3, 4, 3, []⟩, ⟨3, 1, 6, 11, 2, []⟩, ⟨4, 1, 7, 8, 3, []⟩, ⟨5, 1, 9, 10, 3, []⟩, ⟨6, 1, 12, 13, 2, []⟩] }

theorem loopDB_inv : NInv loopDB.rows := by
  refine ⟨⟨by decide, by decide, by decide, by decide, by decide, by decide, by decide, by decide⟩, ?_⟩
  intro r hr
  refine full_of_range 14 ?_ ?_
  · revert r; decide
  · revert r; decide

/-- **Nodes of the target's tree** (violation): 2 and then 3 are to go after 6, their sibling.  After the first move the object for 3 has a range in which 6 is now, and the second one is
refused as if 6 were below 3; with objects fetched anew it is done. -/
theorem C79_ns_same_tree :
    let nodes := [⟨2, 1, 2, 5, 2, []⟩, ⟨3, 1, 6, 11, 2, []⟩]
    Consistent loopDB ∧ (moveLoop ⟨[]⟩ (some .right) nodes ⟨6, 1, 12, 13, 2, []⟩ loopDB).2 = some .invalidMoveToDescendant ∧ (moveFresh ⟨[]⟩ (some .right) 6 [2, 3] loopDB).2 = none ∧
      forest (moveFresh ⟨[]⟩ (some .right) 6 [2, 3] loopDB).1 (some 1) = [6, 3, 2] :=
  ⟨loopDB_inv, by decide +kernel⟩

end NS

namespace AL

variable {cfg : Cfg} {db : DB}

/-- what the loop leaves behind -/
structure LoopGood (cfg : Cfg) (db : DB) (pos : Pos) (t : Nat) (xs : List Nat) (out : DB × Option Err) : Prop where
  consistent : Consistent cfg out.1
  data : data out.1.rows = data db.rows
  out : Forest.LoopOut pos t xs (forest cfg db) (forest cfg out.1) out.2 (fun _ _ => False)

theorem loop_good (ho : cfg.ordered = false) {posArg : Option Pos} {pos : Pos} (hprep : preparePosForMove false posArg = .ok pos) (hl : pos ≠ .left) {t : Row} :
    ∀ {xs : List Row} {t0 : Row} {db : DB}, LoopInv cfg pos db xs t t0 → LoopGood cfg db pos t.pk (xs.map Row.pk) (moveLoop cfg posArg t xs db) := by
  intro xs
  induction xs with
  | nil => intro t0 db h; exact ⟨h.consistent, rfl, .nil⟩
  | cons x xs ih =>
    intro t0 db h
    obtain ⟨x0, hx0, hpk, hstep⟩ := h.step ho hprep hl
    rw [List.map_cons]
    unfold moveLoop
    rcases hstep with ⟨hr, e, _⟩ | ⟨db', obj, obj0, t1, p, hr, e, _, _, h4, hp, hf, hd⟩
    · rw [e]
      exact ⟨h.consistent, rfl, .stop (Or.inl ⟨rfl, hr⟩)⟩
    · rw [e]
      have := ih h4
      exact ⟨this.consistent, this.data.trans hd, .cons hp hr (hf ▸ this.out)⟩

/-- **C79 for AL** (partial: without `node_order_by`, and not for the position `left`; see `C79_al_left`).  Different nodes fetched before the loop are moved one after the other relative
to one target, which is not one of them unless the position is a child.  Then the loop does exactly what it does with objects fetched anew for every move, the tree is consistent,
and every node is where it was asked for, up to the first one that cannot move. -/
theorem C79_al_partial (h : Consistent cfg db) (ho : cfg.ordered = false) {nodes : List Row} (hn : ∀ x ∈ nodes, x ∈ db.rows) {t : Row} (ht : t ∈ db.rows)
    {posArg : Option Pos} {pos : Pos} (hprep : preparePosForMove false posArg = .ok pos) (hl : pos ≠ .left) (hnd : (nodes.map Row.pk).Nodup)
    (hot : pos.isChild = false → t.pk ∉ nodes.map Row.pk) :
    moveLoop cfg posArg t nodes db = moveFresh cfg posArg t.pk (nodes.map Row.pk) db ∧ LoopGood cfg db pos t.pk (nodes.map Row.pk) (moveLoop cfg posArg t nodes db) := by
  have hi : LoopInv cfg pos db nodes t t := ⟨h, fun x hx => ⟨x, hn x hx, .refl x⟩, hnd, ht, ⟨.refl t, fun _ => rfl⟩, hot⟩
  exact ⟨moveLoop_fresh ho hprep hl hi, loop_good ho hprep hl hi⟩

/-- 2 and 4 go after 5, the last root -/
example : AL.Consistent exPlain exDB ∧ (moveLoop exPlain (some .right) ⟨5, none, 3, []⟩ [⟨2, some 1, 1, []⟩, ⟨4, some 3, 1, []⟩] exDB).2 = none ∧
    forest exPlain (moveLoop exPlain (some .right) ⟨5, none, 3, []⟩ [⟨2, some 1, 1, []⟩, ⟨4, some 3, 1, []⟩] exDB).1 none = [1, 5, 4, 2] := by
  refine ⟨consistent_of_inv rfl exDB_inv, by decide +kernel, by decide +kernel⟩

/-- **Several nodes to the left of one target** (violation): 2 and then 4 are to go before 5.  The first move gives the place of 5 to 2 and shifts 5, of which the object knows nothing:
the second move gives the same place to 4, before 2.  With objects fetched anew 4 comes between 2 and 5. -/
theorem C79_al_left :
    let nodes := [⟨2, some 1, 1, []⟩, ⟨4, some 3, 1, []⟩]
    Consistent exPlain exDB ∧ (moveLoop exPlain (some .left) ⟨5, none, 3, []⟩ nodes exDB).2 = none ∧ forest exPlain (moveLoop exPlain (some .left) ⟨5, none, 3, []⟩ nodes exDB).1 none = [1, 4, 2, 5] ∧
      forest exPlain (moveFresh exPlain (some .left) 5 [2, 4] exDB).1 none = [1, 2, 4, 5] :=
  ⟨consistent_of_inv rfl exDB_inv, by decide +kernel⟩

end AL

namespace LT

variable {cfg : Cfg} {db : DB}

/-- what the loop leaves behind -/
structure LoopGood (db : DB) (pos : Pos) (t : Nat) (xs : List Nat) (out : DB × Option Err) : Prop where
  consistent : Consistent out.1
  data : data out.1.rows = data db.rows
  err : out.2 = none ∨ out.2 = some .invalidMoveToDescendant
  out : pos = .lastSibling ∨ pos = .lastChild → Forest.LoopOut pos t xs (forest db) (forest out.1) out.2 (fun _ _ => False)

theorem loop_good (ho : cfg.ordered = false) {posArg : Option Pos} {pos : Pos} (hpos : preparePosForMove false posArg = .ok pos) :
    ∀ {xs : List Row} {t t0 : Row} {db : DB}, LoopInv pos db xs t t0 → LoopGood db pos t0.pk (xs.map Row.pk) (moveLoop cfg posArg xs t db) := by
  intro xs
  induction xs with
  | nil => intro t t0 db h; exact ⟨h.consistent, rfl, Or.inl rfl, fun _ => .nil⟩
  | cons x xs ih =>
    intro t t0 db h
    rw [List.map_cons]
    unfold moveLoop
    rcases h.step ho hpos with ⟨hr, e, _⟩ | ⟨db', obj, t', t1, p, hr, e, _, hk, hl, hp, hm, hf⟩
    · rw [e]
      exact ⟨h.consistent, rfl, Or.inr rfl, fun _ => .stop (Or.inl ⟨rfl, hr⟩)⟩
    · rw [e]
      simp only
      have := ih hl
      rw [hk] at this
      exact ⟨this.consistent, this.data.trans hm.data, this.err, fun hE => .cons hp hr (hf hE ▸ this.out hE)⟩

/-- **C79 for LT** (partial: without `node_order_by`, and for the cases named by the hypotheses; see `C79_lt_flatten` and `C79_lt_left` for others).  Nodes fetched before the loop are
moved one after the other relative to one target.  No node is below an earlier one, and the place is the last one or below a parent none of whose descendants is among the nodes.
Then the loop does exactly what it does with objects fetched anew for every move, the tree is consistent, and no move fails but those that are refused.  For the last place every
node is where it was asked for, up to the first one that is refused. -/
theorem C79_lt_partial (h : Consistent db) (ho : cfg.ordered = false) {nodes : List Row} (hn : ∀ x ∈ nodes, x ∈ db.rows) {t : Row} (ht : t ∈ db.rows)
    {posArg : Option Pos} {pos : Pos} (hpos : preparePosForMove false posArg = .ok pos) {p : Option Nat} (hp : t.pk ∈ forest db p)
    (hap : (forest db).NoneBelow (nodes.map Row.pk)) (hout : (forest db).Outside pos p t.pk (nodes.map Row.pk)) :
    moveLoop cfg posArg nodes t db = moveFresh cfg posArg t.pk (nodes.map Row.pk) db ∧ LoopGood db pos t.pk (nodes.map Row.pk) (moveLoop cfg posArg nodes t db) := by
  have hi := h.inv.inv
  have hpl := (prepMove_arg hpos).1
  have hli : LoopInv pos db nodes t t := by
    rw [mem_forest hi ht] at hp
    rw [forest_eq hi] at hap hout
    refine ⟨h, hn, ?_, ht, .refl pos t, ?_⟩
    · refine List.Pairwise.imp_of_mem ?_ (List.pairwise_map.1 hap)
      rintro a b ha hb ⟨h1, h2⟩ hpre
      exact h2 ((desc_iff (L := 1) hi (by omega) (hn a ha) (hn b hb)).2 ⟨hpre, fun e => h1 (by rw [e])⟩)
    · rcases hout with h1 | h1 | ⟨q, hq, h1⟩
      · exact Or.inl (Or.inl h1)
      · exact Or.inl (Or.inr h1)
      · refine Or.inr (fun x hx hu => h1 x.pk (List.mem_map_of_mem hx) ?_)
        have : ∃ r ∈ db.rows, r.path = destPath pos t ∧ r.pk = q := by
          unfold Pos.dest at hq
          unfold destPath
          rw [isChildPos_eq]
          split at hq
          · rename_i hc
            cases hq
            exact ⟨t, ht, by rw [if_pos hc], rfl⟩
          · rename_i hc
            rw [if_neg hc]
            rw [← hp, (par_iff hi (IsPar.drop hi ht) ht).2 rfl] at hq
            exact (pkAt_eq_some hi).1 hq
        obtain ⟨r, hr, h2, rfl⟩ := this
        rw [← h2] at hu
        exact (desc_iff (L := 1) hi (by omega) hr (hn x hx)).2 ⟨hu.1, fun e => by rw [e] at hu; exact Nat.lt_irrefl _ hu.2⟩
  exact ⟨moveLoop_fresh ho hpos hli, loop_good ho hpos hli⟩

/-- 4 and then its parent 3 go below 5 -/
example : Consistent exDB ∧ (forest exDB).NoneBelow [4, 3] ∧ (forest exDB).Outside .firstChild none 5 [4, 3] ∧
    (moveLoop ⟨[]⟩ (some .firstChild) [⟨4, [[65], [66], [65]], []⟩, ⟨3, [[65], [66]], []⟩] ⟨5, [[66]], []⟩ exDB).2 = none ∧
    forest (moveLoop ⟨[]⟩ (some .firstChild) [⟨4, [[65], [66], [65]], []⟩, ⟨3, [[65], [66]], []⟩] ⟨5, [[66]], []⟩ exDB).1 (some 5) = [3, 4] := by
  have hi := exDB_inv.inv
  have m : ∀ k q, (∃ a ∈ exDB.rows, a.pk = k ∧ ∃ b ∈ exDB.rows, b.pk = q ∧ ¬ (a.path <+: b.path ∧ a ≠ b)) → ¬ (forest exDB).Desc k q := by
    rintro k q ⟨a, ha, rfl, b, hb, rfl, h⟩ h'
    rw [forest_eq hi] at h'
    exact h ((desc_iff (L := 1) hi (by omega) ha hb).1 h')
  refine ⟨consistent_iff.2 exDB_inv, ?_, Or.inr (Or.inr ⟨5, rfl, ?_⟩), by decide +kernel, by decide +kernel⟩
  · simp only [Forest.NoneBelow, List.pairwise_cons, List.mem_cons, List.not_mem_nil, or_false]
    refine ⟨?_, fun b hb => absurd hb (by simp), .nil⟩
    rintro b rfl; exact ⟨by decide, m _ _ (by decide +kernel)⟩
  · simp only [List.mem_cons, List.not_mem_nil, or_false]
    rintro b (rfl | rfl) <;> exact m _ _ (by decide +kernel)

/-- **A node after its own parent in the loop** (violation): 3 and then its child 4 are to go below 5.  The object for 4 still has its old path.  4 itself goes where it should, but
its child 6 is not found under the old path and stays where the first move took it, without a parent. -/
theorem C79_lt_flatten :
    let db : DB := { rows := [⟨5, [[66]], []⟩, ⟨1, [[65]], []⟩, ⟨3, [[65], [66]], []⟩, ⟨4, [[65], [66], [65]], []⟩, ⟨6, [[65], [66], [65], [65]], []⟩] }
    let out := moveLoop ⟨[]⟩ (some .lastChild) [⟨3, [[65], [66]], []⟩, ⟨4, [[65], [66], [65]], []⟩] ⟨5, [[66]], []⟩ db
    Consistent db ∧ out.2 = none ∧ ¬ Consistent out.1 ∧ forest (moveFresh ⟨[]⟩ (some .lastChild) 5 [3, 4] db).1 (some 5) = [3, 4] ∧
      forest (moveFresh ⟨[]⟩ (some .lastChild) 5 [3, 4] db).1 (some 4) = [6] := by
  refine ⟨consistent_iff.2 (inv_of_check (by decide)), by decide +kernel, fun h => ?_, by decide +kernel, by decide +kernel⟩
  obtain ⟨q, hq, l, e⟩ := h.parents ⟨6, [[66], [65], [65], [65]], []⟩ (by decide +kernel) (by decide)
  have : q.path = [[66], [65], [65]] := by have := congrArg List.dropLast e; simpa using this.symm
  clear e
  revert q
  decide +kernel

/-- **Siblings to the left of one target** (violation): 3 and then 4 are to go before 2.  The first move shifts the labels of 2 and of all siblings to its right, the second one finds a
label without a shift and so does not refresh 4, whose child 5 is left behind without a parent. -/
theorem C79_lt_left :
    let db : DB := { rows := [⟨1, [[65]], []⟩, ⟨2, [[65, 48]], []⟩, ⟨3, [[66]], []⟩, ⟨4, [[67]], []⟩, ⟨5, [[67], [65]], []⟩] }
    let out := moveLoop ⟨[]⟩ (some .left) [⟨3, [[66]], []⟩, ⟨4, [[67]], []⟩] ⟨2, [[65, 48]], []⟩ db
    Consistent db ∧ out.2 = none ∧ ¬ Consistent out.1 ∧ forest (moveFresh ⟨[]⟩ (some .left) 2 [3, 4] db).1 none = [1, 3, 4, 2] ∧
      forest (moveFresh ⟨[]⟩ (some .left) 2 [3, 4] db).1 (some 4) = [5] := by
  refine ⟨consistent_iff.2 (inv_of_check (by decide)), by decide +kernel, fun h => ?_, by decide +kernel, by decide +kernel⟩
  obtain ⟨q, hq, l, e⟩ := h.parents ⟨5, [[67, 65], [65]], []⟩ (by decide +kernel) (by decide)
  have : q.path = [[67, 65]] := by have := congrArg List.dropLast e; simpa using this.symm
  clear e
  revert q
  decide +kernel

end LT
end Verif
