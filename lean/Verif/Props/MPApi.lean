/-
C62 for MP: histories of all the calls.
-/
import Verif.ApiLemmas
import Verif.Props.SortedAny
import Verif.Props.MPHistory
import Verif.MP.History
import Verif.MP.DumpModel
import Verif.Props.MPForm
import Verif.Props.MPFix
import Verif.Props.MPHistorySorted
import Verif.Props.SortedMoveAny

namespace Verif.MP

/-- the calls of MP, on freshly fetched nodes; `ord` is the order in which the database returns the siblings to `fix_tree` -/
def calls (cfg : Cfg) (ord : List Row → List Row) : Calls DB Row where
  pk := Row.pk
  fetch := DB.get?
  addTo := fun db p a => addTo cfg db p ⟨a.1, [], 0, 0, a.2⟩
  addSibling := fun db t pos a => (addSibling cfg db t pos ⟨a.1, [], 0, 0, a.2⟩).map (·.1)
  move := fun db x t pos => (move cfg db x t pos).map (·.db)
  delete := fun db S => delete cfg db (fun r => S.contains r.pk)
  save := fun db x v => save db { x with vals := v }
  fixTree := fun db p paths =>
    if paths then match fixTreePaths cfg ord db p with
      | (db', none) => .ok db'
      | (_, some e) => .error e
    else .ok (fixTree cfg db p)

/-- The errors that are allowed: no room, and with `node_order_by` siblings out of order. -/
def refuses (cfg : Cfg) (e : Err) : Bool := e == .pathOverflow || (cfg.ordered && e == .integrity)

/-- The guard of one call: a move that goes to the left among its siblings needs the room that it does not check; `fix_paths` is for
trees without `node_order_by` (with it, it sorts). -/
def ApiGuard (cfg : Cfg) (db : DB) : ApiOp → Prop
  | .tree (.move x t posArg) => ∀ p pos, t ∈ forest cfg db p → preparePosForMove cfg.ordered posArg = .ok pos →
      (cfg.ordered = false → MoveFits cfg db x p t pos) ∧
      (cfg.ordered = true → ∀ node, db.get? x = some node → AnyFits cfg db node (pos.dest p t))
  | .fixTree _ paths => paths = true → cfg.ordered = false
  | _ => True

variable {cfg : Cfg} {db : DB} {ord : List Row → List Row}

theorem ordered_iff (cfg : Cfg) : decide (cfg.orderBy ≠ []) = cfg.ordered := by
  unfold Cfg.ordered
  cases cfg.orderBy <;> rfl

theorem ordered_nil (ho : cfg.ordered = false) : cfg.orderBy = [] := by unfold Cfg.ordered at ho; simpa using ho

theorem data_fst (rows : List Row) : (data rows).map Prod.fst = rows.map Row.pk := by
  unfold data; rw [List.map_map]; rfl

theorem contract (hok : cfg.Ok) (hord : OrdersBy cfg ord) :
    Contract (calls cfg ord) cfg.orderBy (forest cfg) (fun db => data db.rows) (Consistent cfg) (ApiGuard cfg) (refuses cfg) where
  known := by
    intro db h k
    have hi := ((consistent_iff hok).1 h).inv
    rw [data_fst]
    constructor
    · intro hm
      obtain ⟨r, hr, rfl⟩ := List.mem_map.1 hm
      exact ⟨r, (get?_eq_some hi).2 ⟨hr, rfl⟩⟩
    · rintro ⟨r, e⟩
      obtain ⟨hr, rfl⟩ := row_of h hok e
      exact List.mem_map_of_mem hr
  pk := fun h e => (row_of h hok e).2
  unique := fun h h1 h2 => parent_unique hok h h1 h2
  parents := by
    intro db p k h hk
    rw [data_fst]
    unfold forest at hk
    simp only at hk
    split at hk
    · simp at hk
    · rename_i r e
      obtain ⟨hr, rfl⟩ := row_of h hok e
      exact List.mem_map_of_mem hr
  add := by
    intro db p k v h hp hk
    have hf : Fresh db ⟨k, [], 0, 0, v⟩ := by
      refine ⟨?_, rfl⟩
      intro r hr e
      rw [data_fst] at hk
      exact hk (List.mem_map.2 ⟨r, hr, e⟩)
    have hfin : ∀ {db' obj q s}, AddedAt cfg db db' obj ⟨k, [], 0, 0, v⟩ q s →
        slotFor cfg.orderBy (valsIn (data db.rows)) v (forest cfg db q) .last = s →
        Consistent cfg db' ∧ obj.pk = k ∧ data db'.rows = data db.rows ++ [(k, v)] ∧
          forest cfg db' = (forest cfg db).put q (slotFor cfg.orderBy (valsIn (data db.rows)) v (forest cfg db q) .last) k := by
      intro db' obj q s ha hs
      exact ⟨ha.consistent, ha.obj.2, ha.data, by rw [hs]; exact ha.forest⟩
    cases p with
    | none =>
      cases ho : cfg.ordered with
      | false =>
        rcases C05_add_root hok h ho hf with ⟨db', obj, e, ha⟩ | ⟨e, _⟩
        · exact Or.inl ⟨db', obj, e, hfin ha (by rw [ordered_nil ho, slotFor_nil])⟩
        · exact Or.inr ⟨_, e, rfl⟩
      | true =>
        rcases C48_mp_add_root_partial hok h ho hf with ⟨db', obj, s, e, ha, hs⟩ | ⟨e, _⟩ | ⟨e, _⟩
        · rw [valsOf_eq] at hs
          exact Or.inl ⟨db', obj, e, hfin ha (hs.slotFor (ordered_ne ho) _)⟩
        · exact Or.inr ⟨_, e, rfl⟩
        · exact Or.inr ⟨_, e, by unfold refuses; rw [ho]; rfl⟩
    | some t =>
      have ht := hp t rfl
      rw [data_fst] at ht
      obtain ⟨r, hr, hrk⟩ := List.mem_map.1 ht
      have hrk : t.pk = r.pk := hrk.symm
      rw [Option.map_some]
      show (∃ s' obj, (addChild cfg db t ⟨k, [], 0, 0, v⟩).map _ = .ok (s', obj) ∧ Consistent cfg s' ∧ Row.pk obj = k ∧ _ ∧
        forest cfg s' = (forest cfg db).put (some t.pk) (slotFor cfg.orderBy (valsIn (data db.rows)) v (forest cfg db (some t.pk)) .last) k) ∨
        ∃ e, (addChild cfg db t ⟨k, [], 0, 0, v⟩).map _ = .error e ∧ _
      rw [hrk]
      cases ho : cfg.ordered with
      | false =>
        rcases C05_add_child hok h ho hr hrk hf with ⟨db', obj, t', e, ha⟩ | ⟨e, _⟩
        · exact Or.inl ⟨db', obj, by rw [e]; rfl, hfin ha (by rw [ordered_nil ho, slotFor_nil])⟩
        · exact Or.inr ⟨_, by rw [e]; rfl, rfl⟩
      | true =>
        rcases C48_mp_add_child_partial hok h ho hr hrk hf with (⟨db', obj, s, e, ha, hs⟩ | ⟨e, _⟩ | ⟨e, _⟩) | ⟨e, _⟩
        · rw [valsOf_eq] at hs
          exact Or.inl ⟨db', obj, e, hfin ha (hs.slotFor (ordered_ne ho) _)⟩
        · exact Or.inr ⟨_, e, rfl⟩
        · exact Or.inr ⟨_, e, by unfold refuses; rw [ho]; rfl⟩
        · exact Or.inr ⟨_, by rw [e]; rfl, rfl⟩
  sibling := by
    intro db t target k v h et hk posArg
    obtain ⟨ht, rfl⟩ := row_of h hok et
    have hf : Fresh db ⟨k, [], 0, 0, v⟩ := by
      refine ⟨?_, rfl⟩
      intro r hr e
      rw [data_fst] at hk
      exact hk (List.mem_map.2 ⟨r, hr, e⟩)
    rw [ordered_iff]
    cases hp : preparePosForAddSibling cfg.ordered posArg with
    | error e =>
      show (addSibling cfg db target posArg ⟨k, [], 0, 0, v⟩).map _ = _
      unfold addSibling; rw [hp]; rfl
    | ok pos =>
      show ∃ p, target.pk ∈ forest cfg db p ∧ ((∃ s', (addSibling cfg db target posArg ⟨k, [], 0, 0, v⟩).map _ = .ok s' ∧ _) ∨
        ∃ e, (addSibling cfg db target posArg ⟨k, [], 0, 0, v⟩).map _ = .error e ∧ _)
      cases ho : cfg.ordered with
      | false =>
        rw [ho] at hp
        obtain ⟨hq, harg⟩ := prepAdd_arg hp
        obtain ⟨p, hm, ⟨db', obj, e, ha⟩ | ⟨e, _⟩⟩ := C06_add_sibling hok h ho ht hq harg hf
        · refine ⟨p, hm, Or.inl ⟨db', by rw [e]; rfl, ha.consistent, ha.data, ?_⟩⟩
          rw [ordered_nil ho, slotFor_nil]
          exact ha.forest
        · exact ⟨p, hm, Or.inr ⟨_, by rw [e]; rfl, rfl⟩⟩
      | true =>
        rw [ho] at hp
        obtain ⟨p, hm, ⟨db', obj, s, e, ha, hs⟩ | ⟨e, _⟩ | ⟨e, _⟩⟩ := C48_mp_add_sibling_partial hok h ho ht (prepAddSorted_arg hp).2 hf
        · refine ⟨p, hm, Or.inl ⟨db', by rw [e]; rfl, ha.consistent, ha.data, ?_⟩⟩
          rw [valsOf_eq] at hs
          rw [hs.slotFor (ordered_ne ho)]
          exact ha.forest
        · exact ⟨p, hm, Or.inr ⟨_, by rw [e]; rfl, rfl⟩⟩
        · exact ⟨p, hm, Or.inr ⟨_, by rw [e]; rfl, by unfold refuses; rw [ho]; rfl⟩⟩
  move := by
    intro db x t node target posArg h ex et hg
    obtain ⟨hx, rfl⟩ := row_of h hok ex
    obtain ⟨ht, rfl⟩ := row_of h hok et
    rw [ordered_iff]
    cases hp : preparePosForMove cfg.ordered posArg with
    | error e =>
      show (move cfg db node target posArg).map _ = _
      unfold move; rw [hp]; rfl
    | ok pos =>
      refine ⟨fun hr => ⟨.invalidMoveToDescendant, ?_⟩, fun hr => ?_⟩
      · show (move cfg db node target posArg).map _ = _
        rw [C08_mp hok h hx ht hp hr]; rfl
      · show ∃ p, target.pk ∈ forest cfg db p ∧ ((∃ s', (move cfg db node target posArg).map _ = .ok s' ∧ _) ∨
          ∃ e, (move cfg db node target posArg).map _ = .error e ∧ _)
        cases ho : cfg.ordered with
        | false =>
          have hp' := hp
          rw [ho] at hp
          obtain ⟨hq, harg⟩ := prepMove_arg hp
          obtain ⟨p, hm, hmv⟩ := C07_move_partial hok h ho hx ht hq harg hr
          rcases hmv ((hg p pos hm hp').1 ho) with ⟨res, e, ha⟩ | ⟨e, _⟩
          · refine ⟨p, hm, Or.inl ⟨res.db, by rw [e]; rfl, ha.consistent, ha.data, ?_⟩⟩
            unfold STree.moveAny
            rw [if_pos (ordered_nil ho)]
            exact ha.forest
          · exact ⟨p, hm, Or.inr ⟨_, by rw [e]; rfl, rfl⟩⟩
        | true =>
          have hp' := hp
          rw [ho] at hp
          obtain ⟨p, hm, hmv⟩ := C60_mp_move_partial hok h ho hx ht hp hr
          rcases hmv ((hg p pos hm hp').2 ho node ex) with ⟨res, s, e, ha, hs⟩ | ⟨e, _⟩ | ⟨e, _⟩
          · refine ⟨p, hm, Or.inl ⟨res.db, by rw [e]; rfl, ha.consistent, ha.data, ?_⟩⟩
            unfold STree.moveAny
            rw [if_neg (ordered_ne ho)]
            show forest cfg res.db = (forest cfg db).move node.pk (pos.dest p target.pk) (slotFor cfg.orderBy (valsIn (data db.rows))
              (valsIn (data db.rows) node.pk) ((forest cfg db).remove node.pk (pos.dest p target.pk)) .last)
            rw [valsOf_eq] at hs
            have hv : valsIn (data db.rows) node.pk = node.vals := by
              rw [← valsOf_eq]; exact valsOf_row ((consistent_iff hok).1 h).inv hx
            rw [hv, hs.slotFor (ordered_ne ho)]
            exact ha.forest
          · exact ⟨p, hm, Or.inr ⟨_, by rw [e]; rfl, rfl⟩⟩
          · exact ⟨p, hm, Or.inr ⟨_, by rw [e]; rfl, by unfold refuses; rw [ho]; rfl⟩⟩
  delete := by
    intro db h S
    obtain ⟨D, h1, h2, h3, h4⟩ := C09_delete hok h S.contains
    exact ⟨D, by rw [data_fst]; exact h1, h2, h3, h4⟩
  save := by
    intro db k r h e v
    obtain ⟨hr, rfl⟩ := row_of h hok e
    have hi := (consistent_iff hok).1 h
    obtain ⟨db₁, he⟩ := edited hi hr v
    exact ⟨db₁, he.save, (consistent_iff hok).2 he.inv, by rw [forest_eq he.inv hok, he.forest, ← forest_eq hi hok], he.data⟩
  fix := by
    intro db p r paths h hg hr
    left
    have hrows : (fixTree cfg db r).rows = db.rows := C14_consistent hok h
    have hc : Consistent cfg (fixTree cfg db r) := by
      rw [consistent_iff hok, hrows]; exact (consistent_iff hok).1 h
    have hfor : forest cfg (fixTree cfg db r) = forest cfg db := by
      rw [forest_eq ((consistent_iff hok).1 hc) hok, forest_eq ((consistent_iff hok).1 h) hok, hrows]
    cases paths with
    | false => exact ⟨fixTree cfg db r, rfl, hc, hfor, by rw [hrows]⟩
    | true =>
      have ho := hg rfl
      have hvalid : ValidParent (fixTree cfg db r) r := by
        rintro q rfl
        cases p with
        | none => cases hr
        | some t =>
          simp only [Calls.fetchParent] at hr
          cases e : (calls cfg ord).fetch db t with
          | none => rw [e] at hr; cases hr
          | some q' =>
            rw [e] at hr
            cases hr
            refine ⟨q, ?_, rfl, rfl, rfl⟩
            rw [hrows]
            exact (row_of h hok e).1
      rcases C14_fix_paths hok hord hc hvalid with ⟨db', e, hfx⟩ | ⟨_, ho'⟩
      · refine ⟨db', ?_, hfx.consistent, by rw [hfx.plain ho, hfor], ?_⟩
        · simp only [calls, if_pos, e]
        · have := congrArg (List.map (fun r : Row => (r.pk, r.vals))) hfx.rest
          rw [List.map_map, List.map_map, hrows] at this
          exact this
      · rw [ho] at ho'; cases ho'

/-- **C62 for MP** (partial: moves need the room that they do not check, see C12_move_corrupts and C60_mp_corrupts; with `node_order_by` calls may fail because
the siblings are out of order, see C48_mp_edited). -/
theorem C62_mp_partial (hok : cfg.Ok) (hord : OrdersBy cfg ord) (h : Consistent cfg db) (ops : List ApiOp)
    (hg : (calls cfg ord).Guarded (ApiGuard cfg) db ops) :
    Consistent cfg ((calls cfg ord).run db ops) ∧
    ShowsSTree (forest cfg ((calls cfg ord).run db ops)) (data ((calls cfg ord).run db ops).rows)
      (STree.runApi cfg.orderBy ⟨data db.rows, forest cfg db⟩ ((calls cfg ord).made (refuses cfg) db ops)) :=
  (contract hok hord).run ops h hg ⟨rfl, rfl⟩

theorem apiGuard_child (hpos : preparePosForMove cfg.ordered posArg = .ok pos) (hc : pos.isChild = true)
    (hx : x ∉ forest cfg db (some t)) : ApiGuard cfg db (.tree (.move x t posArg)) := by
  intro p pos' ht e
  rw [hpos] at e
  cases e
  have hd : pos.dest p t = some t := by unfold Pos.dest; rw [if_pos hc]
  exact ⟨fun _ _ h => absurd (hd ▸ h) hx, fun _ node hn _ h => by
    have : node.pk = x := by
      unfold DB.get? at hn
      simpa using List.find?_some hn
    rw [this, hd] at h
    exact absurd h hx⟩

example : exCfg.Ok ∧ OrdersBy exCfg (stableOrder exCfg) ∧ Consistent exCfg { rows := [] } ∧ (calls exCfg (stableOrder exCfg)).Guarded (ApiGuard exCfg) { rows := [] } exApi ∧
    (let F := forest exCfg ((calls exCfg (stableOrder exCfg)).run { rows := [] } exApi); [F none, F (some 1), F (some 4), F (some 6)] = [[1, 4], [5], [2, 6], [7]]) := by
  refine ⟨exCfg_ok, stableOrder_orders _, ⟨by decide, by decide, by intro p; cases p <;> decide, by decide, by decide⟩, ?_, by decide +kernel⟩
  exact ⟨trivial, trivial, trivial, apiGuard_child (pos := .firstChild) rfl rfl (by decide +kernel), apiGuard_child (pos := .lastChild) rfl rfl (by decide +kernel), trivial,
    trivial, trivial, by rintro ⟨⟩, trivial⟩

/-- with `node_order_by`, after an edit: the call `add_sibling(5)` fails, the other ones do what they are asked for -/
example : exAny.Ok ∧ Consistent exAny { rows := [] } ∧ (calls exAny (stableOrder exAny)).Guarded (ApiGuard exAny) { rows := [] } exApiSorted ∧
    ((calls exAny (stableOrder exAny)).made (refuses exAny) { rows := [] } exApiSorted).length + 1 = exApiSorted.length ∧
    (let F := forest exAny ((calls exAny (stableOrder exAny)).run { rows := [] } exApiSorted); [F none, F (some 1), F (some 4), F (some 6)] = [[4, 1], [], [6, 2], [7]]) := by
  refine ⟨⟨by decide, by decide, by decide⟩, ⟨by decide, by decide, by intro p; cases p <;> decide, by decide, by decide⟩, ?_, by decide +kernel, by decide +kernel⟩
  exact ⟨trivial, trivial, trivial, apiGuard_child (pos := .sortedChild) rfl rfl (by decide +kernel), apiGuard_child (pos := .sortedChild) rfl rfl (by decide +kernel), trivial,
    trivial, trivial, trivial, trivial⟩

end Verif.MP
