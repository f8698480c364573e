/-
C62 for LT: histories of all the calls.
-/
import Verif.ApiLemmas
import Verif.LT.History
import Verif.LT.DumpModel
import Verif.Props.LTForm
import Verif.Props.SortedMoveAny

namespace Verif.LT

/-- the calls of LT, on freshly fetched nodes; there is no `fix_tree` -/
def calls (cfg : Cfg) : Calls DB Row where
  pk := Row.pk
  fetch := DB.get?
  addTo := fun db p a => addTo cfg db p ⟨a.1, [], a.2⟩
  addSibling := fun db t pos a => (addSibling cfg db t pos ⟨a.1, [], a.2⟩).map (·.1)
  move := fun db x t pos => (move cfg db x t pos).map (·.1)
  delete := fun db S => delete db (fun r => S.contains r.pk)
  save := fun db x v => .ok (save db { x with vals := v })
  fixTree := fun _ _ _ => .error .attributeError

/-- "no label left": what the calls of LT can raise on a consistent tree though they ask for something possible -/
def refuses (e : Err) : Bool := e == .valueError

variable {cfg : Cfg} {db : DB}

theorem ordered_iff (cfg : Cfg) : decide (cfg.orderBy ≠ []) = cfg.ordered := by
  unfold Cfg.ordered
  cases cfg.orderBy <;> rfl

theorem fresh_key {k : Nat} {v : Vals} (hk : k ∉ (data db.rows).map Prod.fst) : Fresh db ⟨k, [], v⟩ := by
  intro r hr e
  rw [keys_eq] at hk
  exact hk (List.mem_map.2 ⟨r, hr, e⟩)

/-- a place among the siblings is a place below the parent -/
theorem Added.put_near {db' : DB} {obj new : Row} {p : Option Nat} {s : Slot} {C : Prop} (h : Consistent db) (hf : Fresh db new)
    (ha : Added db db' obj new p s C) : ((forest db).put p .last new.pk).Near (forest db') := by
  refine (Forest.Near.refl _).added (s' := .last) (fun hm => ?_) (AddedNear.of h.inv ha).near trivial
  obtain ⟨r, hr, e⟩ := List.mem_map.1 (mem_keys h hm)
  exact hf r hr e

/-- what additions give: the new node below the parent, or `ValueError` -/
def Adds (db : DB) (new : Row) (p : Option Nat) (out : Except Err (DB × Row)) : Prop :=
  (∃ db' obj s C, out = .ok (db', obj) ∧ Added db db' obj new p s C) ∨ out = .error .valueError

theorem SortedAddition.adds {S : List Row} {pre : Path} {new : Row} {p : Option Nat} {out : Except Err (DB × Row)}
    (h : SortedAddition cfg db S pre new p out) : Adds db new p out := by
  rcases h with ⟨b, _, db', obj, e, ha⟩ | ⟨_, ⟨db', l, s, e, ha, _⟩ | ⟨e, _⟩⟩
  · exact Or.inl ⟨_, _, _, _, e, ha⟩
  · exact Or.inl ⟨_, _, _, _, e, ha⟩
  · exact Or.inr e

theorem addRoot_adds (h : Consistent db) {new : Row} (hf : Fresh db new) : Adds db new none (addRoot cfg db new) := by
  cases ho : cfg.ordered with
  | true => exact (addRoot_sorted ho h.inv hf).adds
  | false =>
    rcases addRoot_unsorted ho h.inv hf with ⟨db', l, s, e, ha, _⟩ | ⟨e, _⟩
    · exact Or.inl ⟨_, _, _, _, e, ha⟩
    · exact Or.inr e

theorem addChild_adds (h : Consistent db) {t : Row} (ht : t ∈ db.rows) {new : Row} (hf : Fresh db new) :
    Adds db new (some t.pk) (addChild cfg db t new) := by
  cases ho : cfg.ordered with
  | true => exact (addChild_sorted ho h.inv ht hf).adds
  | false =>
    obtain ⟨db', obj, e, ha⟩ := addChild_unsorted ho h.inv ht hf
    exact Or.inl ⟨_, _, _, _, e, ha⟩

theorem nodup_forest (h : Consistent db) (p : Option Nat) : (forest db p).Nodup := by
  obtain ⟨l, e, hl, hm⟩ := (shows_forest h.inv.inv).lists p
  rw [e, List.nodup_iff_pairwise_ne, List.pairwise_map]
  refine hl.imp_of_mem (fun {a b} ha hb hab e' => ?_)
  rw [h.inv.inv.pk_inj ((hm a).1 ha).1 ((hm b).1 hb).1 e'] at hab
  exact plt_irrefl _ hab

theorem contract (cfg : Cfg) : NearContract (calls cfg) cfg.orderBy forest (fun db => data db.rows) Consistent (fun db r => r ∈ db.rows) refuses where
  known := by
    intro db h k
    rw [keys_eq]
    constructor
    · intro hm
      obtain ⟨r, hr, rfl⟩ := List.mem_map.1 hm
      exact ⟨r, (get?_eq_some h.inv.inv).2 ⟨hr, rfl⟩⟩
    · rintro ⟨r, e⟩
      obtain ⟨hr, rfl⟩ := row_of h e
      exact List.mem_map_of_mem hr
  fetched := fun h e => row_of h e
  valid := by
    intro db r h hr
    rw [keys_eq]
    exact List.mem_map_of_mem hr
  unique := fun h h1 h2 => parent_unique h h1 h2
  parents := by
    intro db p k h hk
    rw [keys_eq]
    obtain ⟨r, hr, rfl⟩ := List.mem_map.1 (mem_keys h hk)
    obtain ⟨q, hm, rfl⟩ := Option.map_eq_some_iff.1 ((mem_forest h.inv.inv hr).1 hk)
    exact List.mem_map_of_mem (List.mem_of_find?_eq_some hm)
  nodup := fun h p => nodup_forest h p
  add := by
    intro db p k v h hp hk
    have hf := fresh_key (v := v) hk
    cases p with
    | none =>
      show (∃ s' obj, addRoot cfg db ⟨k, [], v⟩ = .ok (s', obj) ∧ _) ∨ _
      rcases addRoot_adds (cfg := cfg) h hf with ⟨db', obj, s, C, e, ha⟩ | e
      · exact Or.inl ⟨db', obj, e, consistent_iff.2 ha.inv, ha.obj.1, ha.obj.2, ha.data, ha.put_near h hf, (fun _ e => by cases e), (fun g r hg e => by cases e)⟩
      · exact Or.inr ⟨_, e, rfl⟩
    | some t =>
      have ht := hp t rfl
      show (∃ s' obj, addChild cfg db t ⟨k, [], v⟩ = .ok (s', obj) ∧ _) ∨ _
      rcases addChild_adds (cfg := cfg) h ht hf with ⟨db', obj, s, C, e, ha⟩ | e
      · have hframe : ∀ g ∈ db.rows, ¬ (forest db).Desc t.pk g.pk → g ∈ db'.rows := by
          intro g hg hd
          refine ha.frame t ht rfl g hg (fun l u e => hd ?_)
          rw [forest_eq h.inv.inv, desc_PF h.inv.inv ht hg]
          refine ⟨⟨l :: u, e.symm⟩, ?_⟩
          rintro rfl
          simpa using congrArg List.length e
        have hself : ¬ (forest db).Desc t.pk t.pk := by
          rw [forest_eq h.inv.inv, desc_PF h.inv.inv ht ht]
          exact fun hd => hd.2 rfl
        refine Or.inl ⟨db', obj, e, consistent_iff.2 ha.inv, ha.obj.1, ha.obj.2, ha.data, ha.put_near h hf, ?_, ?_⟩
        · rintro r ⟨⟩; exact hframe t ht hself
        · rintro g r hg ⟨⟩ hd; exact hframe g hg hd
      · exact Or.inr ⟨_, e, rfl⟩
  sibling := by
    intro db t target k v h et hk posArg
    obtain ⟨ht, rfl⟩ := row_of h et
    have hf := fresh_key (v := v) hk
    rw [ordered_iff]
    cases hp : preparePosForAddSibling cfg.ordered posArg with
    | error e =>
      show (addSibling cfg db target posArg ⟨k, [], v⟩).map _ = _
      rw [addSibling_error hp]; rfl
    | ok pos =>
      show ∃ p, target.pk ∈ forest db p ∧ ((∃ s', (addSibling cfg db target posArg ⟨k, [], v⟩).map _ = .ok s' ∧ _) ∨
        ∃ e, (addSibling cfg db target posArg ⟨k, [], v⟩).map _ = .error e ∧ _)
      cases ho : cfg.ordered with
      | false =>
        rw [ho] at hp
        obtain ⟨db', obj, e, ha⟩ := addSibling_unsorted ho h.inv ht hp hf
        exact ⟨_, (mem_forest h.inv.inv ht).2 rfl, Or.inl ⟨db', by rw [e]; rfl, consistent_iff.2 ha.inv, ha.data, ha.put_near h hf⟩⟩
      | true =>
        rw [ho] at hp
        have hs := addSiblingIn_sorted ho h.inv ht (posArg := posArg) (by rcases (prepAddSorted_arg hp).2 with rfl | rfl <;> decide) hf
        refine ⟨_, (mem_forest h.inv.inv ht).2 rfl, ?_⟩
        rcases hs.adds with ⟨db', obj, s, C, e, ha⟩ | e
        · exact Or.inl ⟨db', by rw [show addSibling cfg db target posArg ⟨k, [], v⟩ = _ from e]; rfl, consistent_iff.2 ha.inv, ha.data, ha.put_near h hf⟩
        · exact Or.inr ⟨_, by rw [show addSibling cfg db target posArg ⟨k, [], v⟩ = _ from e]; rfl, rfl⟩
  move := by
    intro db x t node target posArg h ex et
    obtain ⟨hx, rfl⟩ := row_of h ex
    obtain ⟨ht, rfl⟩ := row_of h et
    rw [ordered_iff]
    cases hp : preparePosForMove cfg.ordered posArg with
    | error e =>
      show (move cfg db node target posArg).map _ = _
      rw [move_error hp]; rfl
    | ok pos =>
      refine ⟨fun hr => ⟨.invalidMoveToDescendant, ?_⟩, fun hr => ?_⟩
      · show (move cfg db node target posArg).map _ = _
        rw [C08_lt h hx ht hp hr]; rfl
      · show ∃ p, target.pk ∈ forest db p ∧ ((∃ s', (move cfg db node target posArg).map _ = .ok s' ∧ _) ∨
          ∃ e, (move cfg db node target posArg).map _ = .error e ∧ _)
        have last : ∀ {p : Option Nat} {s : Slot} {G : Forest}, ((forest db).move node.pk p s).UpToRight G p node.pk →
            ((forest db).move node.pk p .last).Near G := fun hu => (Forest.Near.refl _).moved (s' := .last) hu trivial
        cases ho : cfg.ordered with
        | false =>
          rw [ho] at hp
          obtain ⟨p, hm, db', obj, e, hmv, _⟩ := C36_move_partial ho h hx ht hp hr
          refine ⟨p, hm, Or.inl ⟨db', by rw [e]; rfl, hmv.consistent, hmv.data, ?_⟩⟩
          refine Forest.Near.trans ?_ hmv.near.near
          have := moveAny_near (ob := []) (a := ⟨[], forest db⟩) (x := node.pk) (p := p) (posArg := posArg) (by simpa using hp)
            (fun q => nodup_forest h q) hm (fun q hq => parent_unique h hq hm)
          simpa [STree.moveAny] using this
        | true =>
          rw [ho] at hp
          obtain ⟨p, hm, hout⟩ := C60_lt_move_partial ho h hx ht hp hr
          refine ⟨p, hm, ?_⟩
          rcases hout with ⟨s, db', obj, _, e, hmv, _⟩ | ⟨_, ⟨db', obj, s, e, hmv, _⟩ | ⟨e, _⟩⟩
          · exact Or.inl ⟨db', by rw [e]; rfl, hmv.consistent, hmv.data, last hmv.near⟩
          · refine Or.inl ⟨db', by rw [e]; rfl, hmv.consistent, hmv.data, ?_⟩
            have hobj := (mem_forest hmv.consistent.inv.inv hmv.obj.1).2 rfl
            rw [hmv.obj.2, hmv.forest] at hobj
            rw [hmv.forest]
            refine (Forest.Near.refl ((forest db).remove node.pk)).put (s := .last) trivial ?_ node.pk
            have hno : ∀ q, node.pk ∉ (forest db).remove node.pk q := by intro q; simp [Forest.remove]
            unfold Forest.move Forest.put at hobj
            split at hobj
            · rename_i hq
              rw [hq] at hobj
              exact Forest.in_of_mem (hno _) hobj
            · exact absurd hobj (hno _)
          · exact Or.inr ⟨_, by rw [e]; rfl, rfl⟩
  delete := by
    intro db h S
    obtain ⟨D, h1, h2, h3, h4⟩ := C37_delete h S.contains
    refine ⟨D, by rw [keys_eq]; exact h1, h2, by show Forest.Near _ (forest (delete db _)); rw [h3]; exact .refl _, ?_⟩
    show data (delete db _).rows = _
    rw [h4]
    unfold data
    rw [List.filter_map]
    rfl
  save := by
    intro db k r h e v
    obtain ⟨hr, rfl⟩ := row_of h e
    refine ⟨edited db r v, ?_, consistent_iff.2 (edit_inv h.inv hr v), by rw [edit_forest h.inv hr v]; exact .refl _, edit_data _ _⟩
    show Except.ok (save db _) = _
    rw [edit_save hr]
  fix := fun _ => ⟨_, rfl⟩

/-- **C62 for LT** (partial: not the order of siblings, see the C36 failures, and not the calls that raise `ValueError` because no label is left).
After every history of calls, in whatever order and with whatever values, with or without `node_order_by`, the tree is consistent, and the
parents and the data are those that the calls asked for. -/
theorem C62_lt_partial (cfg : Cfg) (h : Consistent db) (ops : List ApiOp) :
    Consistent ((calls cfg).run db ops) ∧
    ShowsNear (forest ((calls cfg).run db ops)) (data ((calls cfg).run db ops).rows)
      (STree.runApi cfg.orderBy ⟨data db.rows, forest db⟩ ((calls cfg).made refuses db ops)) :=
  (contract cfg).run ops h (a := ⟨data db.rows, forest db⟩) ⟨.refl _, rfl⟩

example : Consistent { rows := [] } ∧
    (let F := forest ((calls ⟨[]⟩).run { rows := [] } exApi); [F none, F (some 1), F (some 4), F (some 6)] = [[1, 4], [5], [2, 6], [7]]) ∧
    ((calls ⟨[]⟩).made refuses { rows := [] } exApi).length = exApi.length ∧
    (let F := forest ((calls exSorted).run { rows := [] } exApiSorted); [F none, F (some 1), F (some 4), F (some 6)] = [[4, 1], [5], [6, 2], [7]]) :=
  ⟨consistent_iff.2 (inv_of_check (by decide)), by decide +kernel, by decide +kernel, by decide +kernel⟩

end Verif.LT
