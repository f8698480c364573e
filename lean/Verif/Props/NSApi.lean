/-
C62 for NS: histories of all the calls.
-/
import Verif.ApiLemmas
import Verif.Props.NSHistory
import Verif.NS.History
import Verif.NS.DumpModel
import Verif.Props.NSForm
import Verif.Props.SortedMoveAny

namespace Verif.NS

/-- the calls of NS, on freshly fetched nodes; there is no `fix_tree` -/
def calls (cfg : Cfg) : Calls DB Row where
  pk := Row.pk
  fetch := DB.get?
  addTo := fun db p a => addTo cfg db p ⟨a.1, 0, 0, 0, 0, a.2⟩
  addSibling := fun db t pos a => (addSibling cfg db t none pos ⟨a.1, 0, 0, 0, 0, a.2⟩).map (·.1)
  move := fun db x t pos => (move cfg db x t none pos).map (·.db)
  delete := fun db S => delete db (fun r => S.contains r.pk)
  save := fun db x v => .ok (save db { x with vals := v })
  fixTree := fun _ _ _ => .error .attributeError

variable {cfg : Cfg} {db : DB}

theorem ordered_iff (cfg : Cfg) : decide (cfg.orderBy ≠ []) = cfg.ordered := by
  unfold Cfg.ordered
  cases cfg.orderBy <;> rfl

theorem contract (cfg : Cfg) : Contract (calls cfg) cfg.orderBy forest (fun db => data db.rows) Consistent (fun _ _ => True) (fun _ => false) where
  known := by
    intro db h k
    rw [keys_eq]
    constructor
    · intro hm
      obtain ⟨r, hr, rfl⟩ := List.mem_map.1 hm
      exact ⟨r, (get?_eq_some h.toNI).2 ⟨hr, rfl⟩⟩
    · rintro ⟨r, e⟩
      obtain ⟨hr, rfl⟩ := row_of h e
      exact List.mem_map_of_mem hr
  pk := fun h e => (row_of h e).2
  unique := fun h h1 h2 => parent_unique h h1 h2
  parents := by
    intro db p k h hk
    rw [keys_eq]
    unfold forest at hk
    simp only at hk
    split at hk
    · simp at hk
    · rename_i r e
      obtain ⟨hr, rfl⟩ := row_of h e
      exact List.mem_map_of_mem hr
  add := by
    intro db p k v h hp hk
    left
    have hf : Fresh db ⟨k, 0, 0, 0, 0, v⟩ := by
      intro r hr e
      rw [keys_eq] at hk
      exact hk (List.mem_map.2 ⟨r, hr, e⟩)
    have hfin : ∀ {db' obj q s}, AddedAt db db' obj ⟨k, 0, 0, 0, 0, v⟩ q s →
        slotFor cfg.orderBy (valsIn (data db.rows)) v (forest db q) .last = s →
        Consistent db' ∧ obj.pk = k ∧ data db'.rows = data db.rows ++ [(k, v)] ∧
          forest db' = (forest db).put q (slotFor cfg.orderBy (valsIn (data db.rows)) v (forest db q) .last) k := by
      intro db' obj q s ha hs
      exact ⟨ha.consistent, ha.obj.2, ha.data, by rw [hs]; exact ha.forest⟩
    have hnil : cfg.ordered = false → cfg.orderBy = [] := by
      intro ho; unfold Cfg.ordered at ho; simpa using ho
    have hne : cfg.ordered = true → cfg.orderBy ≠ [] := by
      intro ho; unfold Cfg.ordered at ho; simpa using ho
    cases p with
    | none =>
      cases ho : cfg.ordered with
      | false =>
        obtain ⟨db', obj, e, ha⟩ := C22_add_root h ho hf
        exact ⟨db', obj, e, hfin ha (by rw [hnil ho, slotFor_nil])⟩
      | true =>
        obtain ⟨db', obj, e, s, ha, hs⟩ := C48_ns_add_root h ho hf
        exact ⟨db', obj, e, hfin ha (hs.slotFor (hne ho) _)⟩
    | some t =>
      have ht := hp t rfl
      rw [keys_eq] at ht
      obtain ⟨r, hr, hrk⟩ := List.mem_map.1 ht
      have hrk : t.pk = r.pk := hrk.symm
      rw [Option.map_some]
      show ∃ s' obj, (addChild cfg db t ⟨k, 0, 0, 0, 0, v⟩).map _ = .ok (s', obj) ∧ Consistent s' ∧ Row.pk obj = k ∧ _ ∧
        forest s' = (forest db).put (some t.pk) (slotFor cfg.orderBy (valsIn (data db.rows)) v (forest db (some t.pk)) .last) k
      rw [hrk]
      cases ho : cfg.ordered with
      | false =>
        obtain ⟨db', obj, t', e, ha⟩ := C22_add_child h ho hr hrk hf
        exact ⟨db', obj, by rw [e]; rfl, hfin ha (by rw [hnil ho, slotFor_nil])⟩
      | true =>
        obtain ⟨db', obj, t', e, s, ha, hs⟩ := C48_ns_add_child h ho hr hrk hf
        exact ⟨db', obj, by rw [e]; rfl, hfin ha (hs.slotFor (hne ho) _)⟩
  sibling := by
    intro db t target k v h et hk posArg
    obtain ⟨ht, rfl⟩ := row_of h et
    have hf : Fresh db ⟨k, 0, 0, 0, 0, v⟩ := by
      intro r hr e
      rw [keys_eq] at hk
      exact hk (List.mem_map.2 ⟨r, hr, e⟩)
    rw [ordered_iff]
    cases hp : preparePosForAddSibling cfg.ordered posArg with
    | error e =>
      show (addSibling cfg db target none posArg ⟨k, 0, 0, 0, 0, v⟩).map _ = _
      unfold addSibling; rw [hp]; rfl
    | ok pos =>
      show ∃ p, target.pk ∈ forest db p ∧ ((∃ s', (addSibling cfg db target none posArg ⟨k, 0, 0, 0, 0, v⟩).map _ = .ok s' ∧ _) ∨ _)
      cases ho : cfg.ordered with
      | false =>
        rw [ho] at hp
        obtain ⟨p, hm, db', obj, e, ha⟩ := C22_add_sibling h ho ht (cached := none) (by intro p e; cases e) hp hf
        refine ⟨p, hm, Or.inl ⟨db', by rw [e]; rfl, ha.consistent, ha.data, ?_⟩⟩
        have : cfg.orderBy = [] := by unfold Cfg.ordered at ho; simpa using ho
        rw [this, slotFor_nil]
        exact ha.forest
      | true =>
        rw [ho] at hp
        obtain ⟨p, hm, db', obj, e, s, ha, hs⟩ := C48_ns_add_sibling h ho ht (cached := none) (prepAddSorted_arg hp).2 hf
        refine ⟨p, hm, Or.inl ⟨db', by rw [e]; rfl, ha.consistent, ha.data, ?_⟩⟩
        rw [hs.slotFor (by unfold Cfg.ordered at ho; simpa using ho)]
        exact ha.forest
  move := by
    intro db x t node target posArg h ex et _
    obtain ⟨hx, rfl⟩ := row_of h ex
    obtain ⟨ht, rfl⟩ := row_of h et
    rw [ordered_iff]
    cases hp : preparePosForMove cfg.ordered posArg with
    | error e =>
      show (move cfg db node target none posArg).map _ = _
      unfold move; rw [hp]; rfl
    | ok pos =>
      refine ⟨fun hr => ⟨.invalidMoveToDescendant, ?_⟩, fun hr => ?_⟩
      · show (move cfg db node target none posArg).map _ = _
        rw [C08_ns h hx ht (cached := none) hp hr]; rfl
      · show ∃ p, target.pk ∈ forest db p ∧ ((∃ s', (move cfg db node target none posArg).map _ = .ok s' ∧ _) ∨ _)
        cases ho : cfg.ordered with
        | false =>
          rw [ho] at hp
          obtain ⟨p, hm, res, e, ha⟩ := C23_move h ho hx ht (cached := none) (by intro p e; cases e) hp hr
          refine ⟨p, hm, Or.inl ⟨res.db, by rw [e]; rfl, ha.consistent, ha.data, ?_⟩⟩
          have : cfg.orderBy = [] := by unfold Cfg.ordered at ho; simpa using ho
          unfold STree.moveAny
          rw [if_pos this]
          exact ha.forest
        | true =>
          rw [ho] at hp
          obtain ⟨p, hm, res, s, e, ha, hs⟩ := C60_ns_move h ho hx ht (cached := none) hp hr
          refine ⟨p, hm, Or.inl ⟨res.db, by rw [e]; rfl, ha.consistent, ha.data, ?_⟩⟩
          have hne : cfg.orderBy ≠ [] := by unfold Cfg.ordered at ho; simpa using ho
          unfold STree.moveAny
          rw [if_neg hne]
          show forest res.db = (forest db).move node.pk (pos.dest p target.pk) (slotFor cfg.orderBy (valsIn (data db.rows)) (valsIn (data db.rows) node.pk)
            ((forest db).remove node.pk (pos.dest p target.pk)) .last)
          rw [valsIn_mem (keys_nodup h) (List.mem_map.2 ⟨node, hx, rfl⟩), hs.slotFor hne]
          exact ha.forest
  delete := by
    intro db h S
    obtain ⟨D, h1, h2, h3, h4⟩ := C24_delete h S.contains
    exact ⟨D, by rw [keys_eq]; exact h1, h2, h3, h4⟩
  save := by
    intro db k r h e v
    obtain ⟨hr, rfl⟩ := row_of h e
    obtain ⟨db₁, he⟩ := edited h hr v
    exact ⟨db₁, by show Except.ok (save db _) = _; rw [he.save], he.inv, he.forest, he.data⟩
  fix := fun _ _ _ => Or.inr ⟨_, rfl⟩

/-- **C62 for NS.** After every history of calls, in whatever order and with whatever values, the tree is consistent, and it is the one
that the calls asked for, data included. -/
theorem C62_ns (cfg : Cfg) (h : Consistent db) (ops : List ApiOp) :
    Consistent ((calls cfg).run db ops) ∧
    ShowsSTree (forest ((calls cfg).run db ops)) (data ((calls cfg).run db ops).rows) (STree.runApi cfg.orderBy ⟨data db.rows, forest db⟩ ops) := by
  have hg : ∀ (db : DB) (ops : List ApiOp), (calls cfg).Guarded (fun _ _ => True) db ops := by
    intro db ops
    induction ops generalizing db with
    | nil => trivial
    | cons op ops ih => exact ⟨trivial, ih _⟩
  obtain ⟨h1, h2⟩ := (contract cfg).run ops h (hg _ _) (a := ⟨data db.rows, forest db⟩) ⟨rfl, rfl⟩
  rw [Calls.made_all] at h2
  exact ⟨h1, h2⟩

example : Consistent { rows := [] } ∧
    (let F := forest ((calls ⟨[]⟩).run { rows := [] } exApi); [F none, F (some 1), F (some 4), F (some 6)] = [[1, 4], [5], [2, 6], [7]]) ∧
    (let F := forest ((calls exSorted).run { rows := [] } exApiSorted); [F none, F (some 1), F (some 4), F (some 6)] = [[4, 1], [5], [6, 2], [7]]) :=
  ⟨empty_consistent, by decide +kernel, by decide +kernel⟩

end Verif.NS
