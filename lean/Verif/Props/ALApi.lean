/-
C62 for AL: histories of all the calls.
-/
import Verif.ApiLemmas
import Verif.AL.History
import Verif.AL.DumpModel
import Verif.Props.ALForm
import Verif.Props.SortedMoveAny

namespace Verif.AL

/-- the calls of AL, on freshly fetched nodes (no `_cached_depth` yet; inside `load_bulk` the objects carry the one they got); there is no
`fix_tree` -/
def calls (cfg : Cfg) : Calls DB (Row × Option Int) where
  pk := fun e => e.1.pk
  fetch := fun db k => (db.get? k).map (fun r => (r, none))
  addTo := fun db p a => addTo cfg db p ⟨a.1, none, 0, a.2⟩
  addSibling := fun db t pos a => (addSibling cfg db t.1 pos ⟨a.1, none, 0, a.2⟩).map (·.1)
  move := fun db x t pos => (move cfg db x.1 t.1 x.2 pos).map (·.1)
  delete := fun db S => delete db (fun r => S.contains r.pk)
  save := fun db x v => save db { x.1 with vals := v }
  fixTree := fun _ _ _ => .error .attributeError

variable {cfg : Cfg} {db : DB}

theorem ordered_iff (cfg : Cfg) : decide (cfg.orderBy ≠ []) = cfg.ordered := by
  unfold Cfg.ordered
  cases cfg.orderBy <;> rfl

theorem fetch_some (h : AI db.rows) {k : Nat} {e : Row × Option Int} (he : (calls cfg).fetch db k = some e) : e.1 ∈ db.rows ∧ e.1.pk = k ∧ e.2 = none := by
  obtain ⟨r, hr, rfl⟩ := Option.map_eq_some_iff.1 he
  obtain ⟨h1, h2⟩ := (get?_eq_some h).1 hr
  exact ⟨h1, h2, rfl⟩

theorem fetch_iff (h : AI db.rows) (k : Nat) : k ∈ (data db.rows).map Prod.fst ↔ ∃ r, (calls cfg).fetch db k = some r := by
  rw [data_keys]
  constructor
  · intro hm
    obtain ⟨r, hr, rfl⟩ := List.mem_map.1 hm
    exact ⟨(r, none), Option.map_eq_some_iff.2 ⟨r, (get?_eq_some h).2 ⟨hr, rfl⟩, rfl⟩⟩
  · rintro ⟨e, he⟩
    obtain ⟨h1, h2, _⟩ := fetch_some h he
    exact List.mem_map.2 ⟨_, h1, h2⟩

theorem parent_known (h : AI db.rows) {p k : Nat} (hk : k ∈ forest cfg db (some p)) : p ∈ (data db.rows).map Prod.fst := by
  rw [data_keys]
  rw [forest_eq h] at hk
  obtain ⟨r, hr, e, _⟩ := mem_PF.1 hk
  obtain ⟨q, hq, e'⟩ := h.exist r hr p e
  exact List.mem_map.2 ⟨q, hq, e'⟩

theorem fresh_key {k : Nat} {v : Vals} (hk : k ∉ (data db.rows).map Prod.fst) : Fresh db ⟨k, none, 0, v⟩ := by
  intro r hr e
  rw [data_keys] at hk
  exact hk (List.mem_map.2 ⟨r, hr, e⟩)

/-! ### Without `node_order_by` -/

theorem contract (ho : cfg.ordered = false) :
    Contract (calls cfg) cfg.orderBy (forest cfg) (fun db => data db.rows) (Consistent cfg) (fun _ _ => True) (fun _ => false) where
  known := fun h k => fetch_iff (h.inv ho).toAI k
  pk := fun h e => (fetch_some (h.inv ho).toAI e).2.1
  unique := fun h h1 h2 => parent_unique (h.inv ho).toAI h1 h2
  parents := fun h hk => parent_known (h.inv ho).toAI hk
  add := by
    intro db p k v h hp hk
    left
    have hf := fresh_key (v := v) hk
    have hnil : cfg.orderBy = [] := by unfold Cfg.ordered at ho; simpa using ho
    rw [hnil, slotFor_nil]
    cases p with
    | none =>
      obtain ⟨db', obj, e, ha⟩ := C31_add_root ho h hf rfl
      refine ⟨db', (obj, some 1), ?_, ha.consistent, ha.obj.2, ha.data, ha.forest⟩
      show (addRoot cfg db _).map _ = _
      rw [e]; rfl
    | some t =>
      have ht := hp t rfl
      rw [data_keys] at ht
      obtain ⟨r, hr, hrk⟩ := List.mem_map.1 ht
      obtain ⟨db', obj, c, e, ha⟩ := C31_add_child ho h hr hrk.symm (cached := t.2) hf
      refine ⟨db', (obj, c), e, ha.consistent, ha.obj.2, ha.data, ?_⟩
      rw [Option.map_some, ← hrk]
      exact ha.forest
  sibling := by
    intro db t target k v h et hk posArg
    obtain ⟨ht, rfl, _⟩ := fetch_some (h.inv ho).toAI et
    have hf := fresh_key (v := v) hk
    have hnil : cfg.orderBy = [] := by unfold Cfg.ordered at ho; simpa using ho
    rw [ordered_iff]
    cases hp : preparePosForAddSibling cfg.ordered posArg with
    | error e =>
      show (addSibling cfg db target.1 posArg ⟨k, none, 0, v⟩).map _ = _
      unfold addSibling; rw [hp]; rfl
    | ok pos =>
      rw [ho] at hp
      obtain ⟨p, hm, db', obj, e, ha⟩ := C31_add_sibling ho h ht hp hf
      refine ⟨p, hm, Or.inl ⟨db', ?_, ha.consistent, ha.data, ?_⟩⟩
      · show (addSibling cfg db target.1 posArg ⟨k, none, 0, v⟩).map _ = _
        rw [e]; rfl
      · rw [hnil, slotFor_nil]
        exact ha.forest
  move := by
    intro db x t node target posArg h ex et _
    obtain ⟨hx, rfl, _⟩ := fetch_some (h.inv ho).toAI ex
    obtain ⟨ht, rfl, _⟩ := fetch_some (h.inv ho).toAI et
    have hnil : cfg.orderBy = [] := by unfold Cfg.ordered at ho; simpa using ho
    rw [ordered_iff]
    cases hp : preparePosForMove cfg.ordered posArg with
    | error e =>
      show (move cfg db node.1 target.1 node.2 posArg).map _ = _
      unfold move; rw [hp]; rfl
    | ok pos =>
      refine ⟨fun hr => ⟨.invalidMoveToDescendant, ?_⟩, fun hr => ?_⟩
      · show (move cfg db node.1 target.1 node.2 posArg).map _ = _
        rw [C08_al h.toWf hx (cached := node.2) hp hr]; rfl
      · rw [ho] at hp
        obtain ⟨p, hm, db', obj, e, ha⟩ := C31_move ho h hx ht (cached := node.2) hp hr
        refine ⟨p, hm, Or.inl ⟨db', ?_, ha.consistent, ha.data, ?_⟩⟩
        · show (move cfg db node.1 target.1 node.2 posArg).map _ = _
          rw [e]; rfl
        · unfold STree.moveAny
          rw [if_pos hnil]
          exact ha.forest
  delete := by
    intro db h S
    obtain ⟨D, h1, h2, h3, h4⟩ := C31_delete ho h S.contains
    exact ⟨D, by rw [data_keys]; exact h1, h2, h3, h4⟩
  save := by
    intro db k r h e v
    have hi := h.inv ho
    obtain ⟨hr, rfl, _⟩ := fetch_some hi.toAI e
    obtain ⟨h1, h2⟩ := edit_plain ho hi hr v
    refine ⟨⟨db.rows.map (edit r.1 v)⟩, edit_save hi.toAI hr v, consistent_of_inv ho h1, ?_, edit_data _ _⟩
    rw [forest_eq (edit_ai hi.toAI hr v), forest_eq hi.toAI]
    exact h2
  fix := fun _ _ _ => Or.inr ⟨_, rfl⟩

/-- **C62 for AL without `node_order_by`.** After every history of calls, in whatever order and with whatever values, the tree is consistent,
and it is the one that the calls asked for, data included. -/
theorem C62_al (ho : cfg.ordered = false) (h : Consistent cfg db) (ops : List ApiOp) :
    Consistent cfg ((calls cfg).run db ops) ∧
    ShowsSTree (forest cfg ((calls cfg).run db ops)) (data ((calls cfg).run db ops).rows)
      (STree.runApi cfg.orderBy ⟨data db.rows, forest cfg db⟩ ops) := by
  obtain ⟨h1, h2⟩ := (contract ho).run ops h ((calls cfg).guarded_true _ _) (a := ⟨data db.rows, forest cfg db⟩) ⟨rfl, rfl⟩
  rw [Calls.made_all] at h2
  exact ⟨h1, h2⟩

/-! ### With `node_order_by` -/

theorem near_of_mem {db' : DB} (h' : AI db'.rows) {F : Forest} (hF : ∀ q, (F q).Nodup)
    (hm : ∀ q k, (∃ r ∈ db'.rows, r.parent = q ∧ r.pk = k) ↔ k ∈ F q) : F.Near (forest cfg db') := by
  intro q
  rw [forest_eq h']
  refine (List.perm_ext_iff_of_nodup (PF_nodup h' q) (hF q)).2 (fun k => ?_)
  rw [mem_PF]
  exact hm q k

theorem put_last_nodup {F : Forest} (hF : ∀ q, (F q).Nodup) {p : Option Nat} {k : Nat} (hk : k ∉ F p) (q : Option Nat) : (F.put p .last k q).Nodup := by
  unfold Forest.put
  split
  · rename_i e
    subst e
    show (F q ++ [k]).Nodup
    exact List.nodup_append.2 ⟨hF q, by simp, by rintro a ha b hb rfl; simp at hb; exact hk (hb ▸ ha)⟩
  · exact hF q

theorem mem_put_last {F : Forest} {p q : Option Nat} {k j : Nat} : j ∈ F.put p .last k q ↔ (q = p ∧ j = k) ∨ j ∈ F q := by
  unfold Forest.put
  split
  · rename_i e
    subst e
    show j ∈ F q ++ [k] ↔ _
    simp [or_comm]
  · rename_i e
    simp [e]

/-- a new row below `p` -/
theorem near_added (h : AI db.rows) {db' : DB} (h' : AI db'.rows) {obj : Row} (hr : db'.rows = db.rows ++ [obj]) (hf : ∀ r ∈ db.rows, r.pk ≠ obj.pk) :
    ((forest cfg db).put obj.parent .last obj.pk).Near (forest cfg db') := by
  rw [forest_eq h]
  refine near_of_mem h' (put_last_nodup (PF_nodup h) (fun hm => ?_)) (fun q k => ?_)
  · obtain ⟨r, hr, _, e⟩ := mem_PF.1 hm
    exact hf r hr e
  · rw [mem_put_last, mem_PF, hr]
    constructor
    · rintro ⟨r, hr, e1, e2⟩
      rcases List.mem_append.1 hr with hr | hr
      · exact Or.inr ⟨r, hr, e1, e2⟩
      · rw [List.mem_singleton] at hr
        subst hr
        exact Or.inl ⟨e1.symm, e2.symm⟩
    · rintro (⟨rfl, rfl⟩ | ⟨r, hr, e1, e2⟩)
      · exact ⟨obj, by simp, rfl, rfl⟩
      · exact ⟨r, List.mem_append_left _ hr, e1, e2⟩

/-- a row that gets a new parent -/
theorem near_moved (h : AI db.rows) {db' : DB} (h' : AI db'.rows) {x : Row} (hx : x ∈ db.rows) {p : Option Nat}
    (hr : db'.rows = db.rows.map (fun r => if r.pk = x.pk then { x with parent := p } else r)) :
    ((forest cfg db).move x.pk p .last).Near (forest cfg db') := by
  rw [forest_eq h]
  unfold Forest.move
  refine near_of_mem h' (put_last_nodup (fun q => (PF_nodup h q).filter _) (fun hm => ?_)) (fun q k => ?_)
  · simp at hm
  · rw [mem_put_last, hr]
    unfold Forest.remove
    rw [List.mem_filter, mem_PF]
    constructor
    · rintro ⟨r', hr', e1, e2⟩
      obtain ⟨r, hr, rfl⟩ := List.mem_map.1 hr'
      split at e1 <;> rename_i hk
      · rw [if_pos hk] at e2
        exact Or.inl ⟨e1.symm, e2.symm⟩
      · rw [if_neg hk] at e2
        exact Or.inr ⟨⟨r, hr, e1, e2⟩, by simp only [ne_eq, decide_eq_true_eq]; rintro rfl; exact hk e2⟩
    · rintro (⟨rfl, rfl⟩ | ⟨⟨r, hr, e1, e2⟩, hne⟩)
      · exact ⟨_, List.mem_map_of_mem hx, by rw [if_pos rfl], by rw [if_pos rfl]⟩
      · simp only [ne_eq, decide_eq_true_eq] at hne
        have hk : r.pk ≠ x.pk := fun e => hne (by rw [← e2, e])
        exact ⟨_, List.mem_map_of_mem hr, by rw [if_neg hk]; exact e1, by rw [if_neg hk]; exact e2⟩

/-- deletion -/
theorem near_deleted (h : AI db.rows) (S : Nat → Bool) :
    ((forest cfg db).prune (gone db (fun r => S r.pk))).Near (forest cfg (delete db (fun r => S r.pk))) := by
  have h' := ai_delete h S
  rw [forest_eq h]
  have hcl : ∀ {r : Row} {p : Nat}, r ∈ db.rows → r.parent = some p → gone db (fun r => S r.pk) p = true → gone db (fun r => S r.pk) r.pk = true := by
    intro r p hr e hg
    rw [gone_iff (cfg := cfg) h] at hg ⊢
    refine ⟨List.mem_map_of_mem hr, ?_⟩
    have hc : r.pk ∈ PF cfg db.rows (some p) := mem_PF.2 ⟨r, hr, e, rfl⟩
    rcases hg.2 with hs | ⟨a, ha, hd⟩
    · exact Or.inr ⟨p, hs, .child hc⟩
    · exact Or.inr ⟨a, ha, .step hd hc⟩
  refine near_of_mem h' (fun q => ?_) (fun q k => ?_)
  · unfold Forest.prune
    cases q with
    | none => exact (PF_nodup h _).filter _
    | some q =>
      dsimp only
      split
      · exact List.nodup_nil
      · exact (PF_nodup h _).filter _
  · rw [delete_rows]
    have base : (∃ r ∈ db.rows.filter (fun r => !gone db (fun r => S r.pk) r.pk), r.parent = q ∧ r.pk = k) ↔
        k ∈ (PF cfg db.rows q).filter (fun y => !gone db (fun r => S r.pk) y) := by
      rw [List.mem_filter, mem_PF]
      constructor
      · rintro ⟨r, hr, e1, e2⟩
        obtain ⟨hr, hg⟩ := List.mem_filter.1 hr
        exact ⟨⟨r, hr, e1, e2⟩, by rw [← e2]; exact hg⟩
      · rintro ⟨⟨r, hr, e1, e2⟩, hg⟩
        exact ⟨r, List.mem_filter.2 ⟨hr, by rw [e2]; exact hg⟩, e1, e2⟩
    rw [base]
    unfold Forest.prune
    cases q with
    | none => rfl
    | some q =>
      dsimp only
      split
      · rename_i hg
        constructor
        · intro hm
          obtain ⟨h1, h2⟩ := List.mem_filter.1 hm
          obtain ⟨r, hr, e1, e2⟩ := mem_PF.1 h1
          have := hcl hr e1 hg
          rw [e2] at this
          rw [this] at h2
          cases h2
        · intro hm; cases hm
      · rfl

theorem near_contract (ho : cfg.ordered = true) :
    NearContract (calls cfg) cfg.orderBy (forest cfg) (fun db => data db.rows) (Wf cfg) (fun db e => e.1.pk ∈ (data db.rows).map Prod.fst)
      (fun _ => false) where
  known := fun h k => fetch_iff h.ai k
  fetched := by
    intro db k e h he
    have := (fetch_some h.ai he).2.1
    exact ⟨by rw [this]; exact (fetch_iff (cfg := cfg) h.ai k).2 ⟨e, he⟩, this⟩
  valid := fun _ h => h
  unique := fun h h1 h2 => parent_unique h.ai h1 h2
  parents := fun h hk => parent_known h.ai hk
  nodup := fun h p => by rw [forest_eq h.ai]; exact PF_nodup h.ai p
  add := by
    intro db p k v h hp hk
    left
    have hf := fresh_key (v := v) hk
    have fin : ∀ {db' : DB} {obj : Row} {c : Option Int} {q : Option Nat}, Wf cfg db' → db'.rows = db.rows ++ [obj] → obj.pk = k → obj.vals = v → obj.parent = q →
        Wf cfg db' ∧ obj.pk ∈ (data db'.rows).map Prod.fst ∧ obj.pk = k ∧ data db'.rows = data db.rows ++ [(k, v)] ∧
        ((forest cfg db).put q .last k).Near (forest cfg db') ∧
        (∀ j ∈ (data db.rows).map Prod.fst, j ∈ (data db'.rows).map Prod.fst) := by
      intro db' obj c q hw hr hpk hv hq
      have hd : data db'.rows = data db.rows ++ [(k, v)] := by rw [hr]; simp [data, hpk, hv]
      refine ⟨hw, by rw [hd, hpk]; simp, hpk, hd, ?_, fun j hj => by rw [hd, List.map_append]; exact List.mem_append_left _ hj⟩
      rw [← hq, ← hpk]
      exact near_added h.ai hw.ai hr (fun r hr' => by rw [hpk]; exact hf r hr')
    cases p with
    | none =>
      obtain ⟨db', obj, e, hw, hr, hpk, hv, hq⟩ := C48_al_add_root ho h hf rfl
      obtain ⟨h1, h2, h3, h4, h5, h6⟩ := fin (c := none) hw hr hpk hv hq
      refine ⟨db', (obj, some 1), ?_, h1, h2, h3, h4, h5, (fun _ e => by cases e), (fun g r hg e => by cases e)⟩
      show (addRoot cfg db _).map _ = _
      rw [e]; rfl
    | some t =>
      have ht := hp t rfl
      rw [data_keys] at ht
      obtain ⟨r, hr, hrk⟩ := List.mem_map.1 ht
      obtain ⟨db', obj, c, e, hw, hr', hpk, hv, hq⟩ := C48_al_add_child ho h hr hrk.symm (cached := t.2) hf
      obtain ⟨h1, h2, h3, h4, h5, h6⟩ := fin (c := none) hw hr' hpk hv hq
      refine ⟨db', (obj, c), e, h1, h2, h3, h4, ?_, fun r' e => h6 _ (hp r' e), fun g _ hg _ _ => h6 _ hg⟩
      rw [Option.map_some]
      show ((forest cfg db).put (some t.1.pk) .last k).Near (forest cfg db')
      rw [← hrk]
      exact h5
  sibling := by
    intro db t target k v h et hk posArg
    obtain ⟨ht, rfl, _⟩ := fetch_some h.ai et
    have hf := fresh_key (v := v) hk
    rw [ordered_iff]
    cases hp : preparePosForAddSibling cfg.ordered posArg with
    | error e =>
      show (addSibling cfg db target.1 posArg ⟨k, none, 0, v⟩).map _ = _
      unfold addSibling; rw [hp]; rfl
    | ok pos =>
      rw [ho] at hp
      obtain ⟨p, hm, db', obj, e, hw, hr, hpk, hv, hq⟩ := C48_al_add_sibling ho h ht (prepAddSorted_arg hp).2 hf
      refine ⟨p, hm, Or.inl ⟨db', ?_, hw, by rw [hr]; simp [data, hpk, hv], ?_⟩⟩
      · show (addSibling cfg db target.1 posArg ⟨k, none, 0, v⟩).map _ = _
        rw [e]; rfl
      · have := near_added (cfg := cfg) h.ai hw.ai hr (fun r hr' => by rw [hpk]; exact hf r hr')
        rw [hq, hpk] at this
        exact this
  move := by
    intro db x t node target posArg h ex et
    obtain ⟨hx, rfl, _⟩ := fetch_some h.ai ex
    obtain ⟨ht, rfl, _⟩ := fetch_some h.ai et
    rw [ordered_iff]
    cases hp : preparePosForMove cfg.ordered posArg with
    | error e =>
      show (move cfg db node.1 target.1 node.2 posArg).map _ = _
      unfold move; rw [hp]; rfl
    | ok pos =>
      refine ⟨fun hr => ⟨.invalidMoveToDescendant, ?_⟩, fun hr => ?_⟩
      · show (move cfg db node.1 target.1 node.2 posArg).map _ = _
        rw [C08_al h hx (cached := node.2) hp hr]; rfl
      · rw [ho] at hp
        obtain ⟨p, hm, db', obj, e, hw, hrows, _⟩ := C60_al_move ho h hx ht (cached := node.2) hp hr
        refine ⟨p, hm, Or.inl ⟨db', ?_, hw, ?_, near_moved h.ai hw.ai hx hrows⟩⟩
        · show (move cfg db node.1 target.1 node.2 posArg).map _ = _
          rw [e]; rfl
        · rw [hrows]
          unfold data
          rw [List.map_map]
          refine List.map_congr_left (fun r hr => ?_)
          show ((if r.pk = node.1.pk then _ else r : Row).pk, (if r.pk = node.1.pk then _ else r : Row).vals) = _
          split
          · rename_i e
            rw [h.ai.pk_inj hr hx e]
          · rfl
  delete := by
    intro db h S
    refine ⟨gone db (fun r => S.contains r.pk), ?_, wf_of_ai (ai_delete h.ai _), near_deleted h.ai S.contains, data_delete _⟩
    intro k
    rw [data_keys, forest_eq h.ai]
    exact gone_iff h.ai S.contains
  save := by
    intro db k r h e v
    obtain ⟨hr, rfl, _⟩ := fetch_some h.ai e
    have h' := edit_ai h.ai hr v
    refine ⟨⟨db.rows.map (edit r.1 v)⟩, edit_save h.ai hr v, wf_of_ai h', ?_, edit_data _ _⟩
    refine near_of_mem h' (fun q => by rw [forest_eq h.ai]; exact PF_nodup h.ai q) (fun q k => ?_)
    rw [forest_eq h.ai, ← edit_parents h.ai hr v, mem_PF]
  fix := fun _ => ⟨_, rfl⟩

/-- **C62 for AL with `node_order_by`.** The order of siblings is not stored, so it is that of the values, whatever the calls: the table is well
formed, and the parents and the data are those that the calls asked for. -/
theorem C62_al_sorted (ho : cfg.ordered = true) (h : Wf cfg db) (ops : List ApiOp) :
    Wf cfg ((calls cfg).run db ops) ∧
    ShowsNear (forest cfg ((calls cfg).run db ops)) (data ((calls cfg).run db ops).rows)
      (STree.runApi cfg.orderBy ⟨data db.rows, forest cfg db⟩ ops) := by
  obtain ⟨h1, h2⟩ := (near_contract ho).run ops h (a := ⟨data db.rows, forest cfg db⟩) ⟨.refl _, rfl⟩
  rw [Calls.made_all] at h2
  exact ⟨h1, h2⟩

example : Consistent exPlain { rows := [] } ∧
    (let F := forest exPlain ((calls exPlain).run { rows := [] } exApi); [F none, F (some 1), F (some 4), F (some 6)] = [[1, 4], [5], [2, 6], [7]]) ∧
    Wf exSorted { rows := [] } ∧
    (let F := forest exSorted ((calls exSorted).run { rows := [] } exApiSorted); [F none, F (some 1), F (some 4), F (some 6)] = [[1, 4], [5], [6, 2], [7]]) := by
  have hw : ∀ cfg, Wf cfg { rows := [] } := fun _ => wf_of_ai (ai_example id (rows := []) (by decide) (by decide))
  exact ⟨⟨hw _, by decide, by decide⟩, by decide +kernel, hw _, by decide +kernel⟩

end Verif.AL
