/-
C61: `node.save()` changes the data of the node and nothing else.
-/
import Verif.Props.MPForm
import Verif.Props.NSForm
import Verif.Props.ALForm
import Verif.Props.LTForm

namespace Verif

/-! ### MP -/

namespace MP

variable {cfg : Cfg} {db : DB}

/-- **C61 for MP** (partial: for an object whose tree fields are those of the stored row, see `C61_mp_stale`): `save()` succeeds, the
forest and all other data stay, and so does consistency. -/
theorem C61_mp_partial (hok : cfg.Ok) (h : Consistent cfg db) {x obj : Row} (hx : x ∈ db.rows) (hk : obj.pk = x.pk) (hp : obj.path = x.path)
    (hd : obj.depth = x.depth) (hn : obj.numchild = x.numchild) :
    ∃ db', save db obj = .ok db' ∧ Consistent cfg db' ∧ forest cfg db' = forest cfg db ∧ data db'.rows = editData (data db.rows) x.pk obj.vals ∧
      obj ∈ db'.rows := by
  have hi := (consistent_iff hok).1 h
  obtain ⟨db', he⟩ := edited hi hx obj.vals
  have hobj : obj = { x with vals := obj.vals } := by
    obtain ⟨a, b, c, d, e⟩ := obj
    obtain ⟨a', b', c', d', e'⟩ := x
    simp only at hk hp hd hn
    subst hk hp hd hn
    rfl
  refine ⟨db', by rw [hobj]; exact he.save, (consistent_iff hok).2 he.inv, ?_, he.data, by rw [hobj]; exact he.mem hx⟩
  rw [forest_eq he.inv hok, he.forest, ← forest_eq hi hok]

example : save exDB ⟨3, [49, 51], 2, 1, [some 7]⟩ = .ok { rows := [⟨4, [49, 51, 49], 3, 0, []⟩, ⟨1, [49], 1, 2, []⟩, ⟨5, [51], 1, 0, []⟩,
    ⟨2, [49, 49], 2, 0, []⟩, ⟨3, [49, 51], 2, 1, [some 7]⟩] } := by decide

/-- **C61 is false for MP.** A node is fetched, another object of the same node gets a child, the first object is saved: the children count
is that from before, and `is_leaf` denies the child. -/
theorem C61_mp_stale : ∃ (db db1 db2 : DB) (x c x' : Row), Consistent exCfg db ∧ x ∈ db.rows ∧
    addChild exCfg db x ⟨2, [], 0, 0, []⟩ = .ok (db1, c, x') ∧ Consistent exCfg db1 ∧ save db1 { x with vals := [some 7] } = .ok db2 ∧
    ¬ Consistent exCfg db2 ∧ forest exCfg db2 (some x.pk) ≠ forest exCfg db1 (some x.pk) := by
  refine ⟨{ rows := [⟨1, [49], 1, 0, []⟩] }, { rows := [⟨1, [49], 1, 1, []⟩, ⟨2, [49, 49], 2, 0, []⟩] },
    { rows := [⟨1, [49], 1, 0, [some 7]⟩, ⟨2, [49, 49], 2, 0, []⟩] }, ⟨1, [49], 1, 0, []⟩, _, _,
    ⟨by decide, by decide, by intro p; cases p <;> decide, by decide, by decide⟩, by decide, rfl,
    ⟨by decide, by decide, by intro p; cases p <;> decide, by decide, by decide⟩, rfl, ?_, by decide⟩
  rintro ⟨_, _, h3, _, _⟩
  exact absurd (h3 .wrongNumchild) (by decide)

/-- **C61 is false for MP.** A node is fetched, it is moved by another object, the first object is saved: its descendants are orphans. -/
theorem C61_mp_stale_path : ∃ (db db2 : DB) (x t : Row) (res : MoveResult), Consistent exCfg db ∧ x ∈ db.rows ∧ t ∈ db.rows ∧
    move exCfg db x t (some .right) = .ok res ∧ Consistent exCfg res.db ∧ save res.db { x with vals := [some 7] } = .ok db2 ∧
    findProblems exCfg db2 none .orphan ≠ [] := by
  refine ⟨{ rows := [⟨1, [49], 1, 1, []⟩, ⟨2, [49, 49], 2, 1, []⟩, ⟨3, [49, 49, 49], 3, 0, []⟩] }, _, ⟨2, [49, 49], 2, 1, []⟩, ⟨1, [49], 1, 1, []⟩, _,
    ⟨by decide, by decide, by intro p; cases p <;> decide, by decide, by decide⟩, by decide, by decide, rfl, ?_, rfl, by decide⟩
  exact ⟨by decide, by decide, by intro p; cases p <;> decide, by decide, by decide⟩

end MP

/-! ### NS -/

namespace NS

variable {cfg : Cfg} {db : DB}

/-- **C61 for NS** (partial likewise, see `C61_ns_stale`). -/
theorem C61_ns_partial (h : Consistent db) {x obj : Row} (hx : x ∈ db.rows) (hk : obj.pk = x.pk) (ht : obj.tree = x.tree)
    (hl : obj.lft = x.lft) (hr : obj.rgt = x.rgt) (hd : obj.depth = x.depth) :
    Consistent (save db obj) ∧ forest (save db obj) = forest db ∧ data (save db obj).rows = editData (data db.rows) x.pk obj.vals ∧
      obj ∈ (save db obj).rows := by
  obtain ⟨db', he⟩ := edited h hx obj.vals
  have hobj : obj = { x with vals := obj.vals } := by
    obtain ⟨a, b, c, d, e, f⟩ := obj
    obtain ⟨a', b', c', d', e', f'⟩ := x
    simp only at hk ht hl hr hd
    subst hk ht hl hr hd
    rfl
  have hs : save db obj = db' := by rw [hobj]; exact he.save
  rw [hs]
  exact ⟨he.inv, he.forest, he.data, by rw [hobj]; exact he.mem hx⟩

example : (save exDB ⟨3, 1, 4, 7, 2, [some 7]⟩).rows = [⟨4, 1, 5, 6, 3, []⟩, ⟨1, 1, 1, 8, 1, []⟩, ⟨5, 2, 1, 2, 1, []⟩, ⟨2, 1, 2, 3, 2, []⟩,
    ⟨3, 1, 4, 7, 2, [some 7]⟩] := by decide

/-- **C61 is false for NS.** A node is fetched, another object of the same node gets a child, the first object is saved: the child is
outside of the node's interval, and no tree contains it. -/
theorem C61_ns_stale : ∃ (db db1 : DB) (x c x' : Row), Consistent db ∧ x ∈ db.rows ∧
    addChild ⟨[]⟩ db x ⟨2, 0, 0, 0, 0, []⟩ = .ok (db1, c, x') ∧ Consistent db1 ∧ ¬ Consistent (save db1 { x with vals := [some 7] }) ∧
    forest (save db1 { x with vals := [some 7] }) (some x.pk) ≠ forest db1 (some x.pk) := by
  refine ⟨{ rows := [⟨1, 1, 1, 2, 1, []⟩] }, _, ⟨1, 1, 1, 2, 1, []⟩, _, _, ?_, by decide, rfl, ?_, fun h => absurd h.toNI.depth (by decide), by decide⟩
  · exact (by decide : NI _) |> fun h => ⟨h, fun r hr => full_of_range 2 (by revert r; decide) (by revert r; decide)⟩
  · exact (by decide : NI _) |> fun h => ⟨h, fun r hr => full_of_range 4 (by revert r; decide) (by revert r; decide)⟩

end NS

/-! ### AL -/

namespace AL

variable {cfg : Cfg} {db : DB}

theorem obj_eq {x obj : Row} (hk : obj.pk = x.pk) (hp : obj.parent = x.parent) (hs : obj.sib = x.sib) : obj = { x with vals := obj.vals } := by
  obtain ⟨a, b, c, d⟩ := obj
  obtain ⟨a', b', c', d'⟩ := x
  simp only at hk hp hs
  subst hk hp hs
  rfl

/-- **C61 for AL without `node_order_by`** (partial likewise, see `C61_al_stale`). -/
theorem C61_al_partial (ho : cfg.ordered = false) (h : Consistent cfg db) {x obj : Row} (hx : x ∈ db.rows) (hk : obj.pk = x.pk)
    (hp : obj.parent = x.parent) (hs : obj.sib = x.sib) :
    ∃ db', save db obj = .ok db' ∧ Consistent cfg db' ∧ forest cfg db' = forest cfg db ∧ data db'.rows = editData (data db.rows) x.pk obj.vals ∧
      obj ∈ db'.rows := by
  have hi := h.inv ho
  have hobj := obj_eq hk hp hs
  obtain ⟨h1, h2⟩ := edit_plain ho hi hx obj.vals
  have hm := edit_mem hx obj.vals
  rw [← hobj] at hm
  refine ⟨⟨db.rows.map (edit x obj.vals)⟩, by rw [hobj]; exact edit_save hi.toAI hx _, consistent_of_inv ho h1, ?_, edit_data _ _, hm⟩
  rw [forest_eq hi.toAI]
  exact (forest_eq (db := ⟨_⟩) h1.toAI).trans h2

/-- **C61 for AL with `node_order_by`**: all nodes keep their parents; the order of siblings follows the new values. -/
theorem C61_al_sorted_partial (h : Wf cfg db) {x obj : Row} (hx : x ∈ db.rows) (hk : obj.pk = x.pk)
    (hp : obj.parent = x.parent) (hs : obj.sib = x.sib) :
    ∃ db', save db obj = .ok db' ∧ Wf cfg db' ∧ (∀ p k, k ∈ forest cfg db' p ↔ k ∈ forest cfg db p) ∧
      data db'.rows = editData (data db.rows) x.pk obj.vals ∧ obj ∈ db'.rows := by
  have hi := h.ai
  have hobj := obj_eq hk hp hs
  have h1 := edit_ai hi hx obj.vals
  have hm := edit_mem hx obj.vals
  rw [← hobj] at hm
  refine ⟨⟨db.rows.map (edit x obj.vals)⟩, by rw [hobj]; exact edit_save hi hx _, wf_of_ai h1, ?_, edit_data _ _, hm⟩
  intro p k
  rw [forest_eq hi, forest_eq (db := ⟨_⟩) h1]
  exact edit_parents hi hx _ p k

example : save exDB ⟨3, some 1, 4, [some 7]⟩ = .ok ⟨[⟨1, none, 2, []⟩, ⟨3, some 1, 4, [some 7]⟩, ⟨2, some 1, 1, []⟩, ⟨4, some 3, 1, []⟩, ⟨5, none, 3, []⟩]⟩ := by
  decide

/-- the two nodes are each other's parent -/
def exLoop : DB := ⟨[⟨1, some 2, 1, []⟩, ⟨2, some 1, 1, [some 7]⟩]⟩

/-- **C61 is false for AL.** The child of a root is fetched; other objects make it a root and the old root its child; the first object is
saved: each of the two is the parent of the other, and no root is left. -/
theorem C61_al_stale : ∃ (db db1 db2 : DB) (x t x1 t2 : Row), Consistent exPlain db ∧ x ∈ db.rows ∧ t ∈ db.rows ∧
    move exPlain db x t none (some .right) = .ok (db1, x1) ∧ Consistent exPlain db1 ∧
    move exPlain db1 t x1 none (some .lastChild) = .ok (db2, t2) ∧ Consistent exPlain db2 ∧
    save db2 { x with vals := [some 7] } = .ok exLoop ∧ ¬ Wf exPlain exLoop := by
  refine ⟨⟨[⟨1, none, 1, []⟩, ⟨2, some 1, 1, []⟩]⟩, ⟨[⟨1, none, 1, []⟩, ⟨2, none, 2, []⟩]⟩, ⟨[⟨1, some 2, 1, []⟩, ⟨2, none, 2, []⟩]⟩,
    ⟨2, some 1, 1, []⟩, ⟨1, none, 1, []⟩, ⟨2, none, 2, []⟩, ⟨1, some 2, 1, []⟩, ?_, by decide, by decide, by decide, ?_, by decide, ?_, by decide, ?_⟩
  · exact ⟨wf_of_ai (ai_example id (by decide) (by decide)), by decide, by decide⟩
  · exact ⟨wf_of_ai (ai_example id (by decide) (by decide)), by decide, by decide⟩
  · exact ⟨wf_of_ai (ai_example (fun k => 3 - k) (by decide) (by decide)), by decide, by decide⟩
  · intro h
    obtain ⟨n, hn⟩ := h.ends ⟨1, some 2, 1, []⟩ (by decide)
    have key : ∀ x n, ¬ (forest exPlain exLoop).Level x n := by
      intro x n hl
      induction hl with
      | root hx => exact absurd hx (by rw [show forest exPlain exLoop none = [] from by decide]; simp)
      | child _ _ ih => exact ih
    exact key 1 n hn

end AL

/-! ### LT -/

namespace LT

variable {cfg : Cfg} {db : DB}

/-- **C61 for LT** (partial likewise, see `C61_lt_stale`). -/
theorem C61_lt_partial (h : Consistent db) {x obj : Row} (hx : x ∈ db.rows) (hk : obj.pk = x.pk) (hp : obj.path = x.path) :
    Consistent (save db obj) ∧ forest (save db obj) = forest db ∧ data (save db obj).rows = editData (data db.rows) x.pk obj.vals ∧
      obj ∈ (save db obj).rows := by
  have hi := consistent_iff.1 h
  have hobj : obj = { x with vals := obj.vals } := by
    obtain ⟨a, b, c⟩ := obj
    obtain ⟨a', b', c'⟩ := x
    simp only at hk hp
    subst hk hp
    rfl
  have hs : save db obj = edited db x obj.vals := by rw [hobj]; exact edit_save hx _
  have hm := edit_mem hx obj.vals
  rw [← hobj] at hm
  rw [hs]
  exact ⟨consistent_iff.2 (edit_inv hi hx _), edit_forest hi hx _, edit_data _ _, hm⟩

example : (save exDB ⟨3, [[65], [66]], [some 7]⟩).rows = [⟨5, [[66]], []⟩, ⟨1, [[65]], []⟩, ⟨2, [[65], [65]], []⟩, ⟨3, [[65], [66]], [some 7]⟩,
    ⟨4, [[65], [66], [65]], []⟩] := by decide

/-- **C61 is false for LT.** A node with a child is fetched, it is moved by another object, the first object is saved: the child is an
orphan. -/
theorem C61_lt_stale : ∃ (db : DB) (x t : Row) (res : DB × Row), Consistent db ∧ x ∈ db.rows ∧ t ∈ db.rows ∧
    move ⟨[]⟩ db x t (some .right) = .ok res ∧ Consistent res.1 ∧ ¬ Consistent (save res.1 { x with vals := [some 7] }) := by
  refine ⟨{ rows := [⟨1, [[65]], []⟩, ⟨2, [[65], [65]], []⟩, ⟨3, [[65], [65], [65]], []⟩] }, ⟨2, [[65], [65]], []⟩, ⟨1, [[65]], []⟩,
    ({ rows := [⟨1, [[65]], []⟩, ⟨2, [[66]], []⟩, ⟨3, [[66], [65]], []⟩], sigs := _ }, _), consistent_iff.2 (inv_of_check (by decide)), by decide, by decide, rfl,
    consistent_iff.2 (inv_of_check (by decide)), ?_⟩
  intro h
  obtain ⟨q, hq, l, e⟩ := h.parents ⟨3, [[66], [65]], []⟩ (by decide) (by decide)
  have e' : q.path = [[66]] := by rw [← List.dropLast_concat (l₁ := q.path) (b := l), ← e]; rfl
  clear e
  revert q
  decide

end LT

end Verif
