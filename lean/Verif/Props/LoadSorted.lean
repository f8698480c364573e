/-
C91: `load_bulk` into a tree that `node_order_by` keeps in order, with the data in any order.
-/
import Verif.LoadSortedLemmas
import Verif.Props.MPHistorySorted
import Verif.Props.MPDump
import Verif.Props.AdminSearch
import Verif.Props.NSDump
import Verif.Props.ALDump
import Verif.Props.LTDump

namespace Verif

/-- The nodes of `n` were loaded below `p`: each is a child of the node that it is a child of in the data, all groups of siblings are in order, and siblings
with equal values are in the order of the data, behind those that were there before.  The old nodes and their data are as before. -/
structure LoadedSorted (ob : List (Nat × Bool)) (F F' : Forest) (D D' : List (Nat × Vals)) (p : Option Nat) (n : Nest Nat) (V : Nat → Vals) : Prop where
  tree : ∃ T, Grafted F T p n ∧ T.StablySorted ob (valsIn D') F'
  sorted : F'.SortedBy ob (valsIn D')
  data : D' = D ++ n.labels.map (fun k => (k, V k))

/-- The same without the order of siblings with equal values, or without any order. -/
structure LoadedBelow (F F' : Forest) (D D' : List (Nat × Vals)) (p : Option Nat) (n : Nest Nat) (V : Nat → Vals) : Prop where
  tree : ∃ T, Grafted F T p n ∧ T.Near F'
  data : D' = D ++ n.labels.map (fun k => (k, V k))

theorem LoadedSorted.below {ob : List (Nat × Bool)} {F F' : Forest} {D D' : List (Nat × Vals)} {p : Option Nat} {n : Nest Nat} {V : Nat → Vals}
    (h : LoadedSorted ob F F' D D' p n V) : LoadedBelow F F' D D' p n V := by
  obtain ⟨T, hg, hs⟩ := h.tree
  exact ⟨⟨T, hg, fun q => (hs q).1⟩, h.data⟩

/-! ### NS -/

namespace NS

variable {cfg : Cfg} {db : DB}

/-- the state during loading -/
structure Midway (cfg : Cfg) (db : DB) (G : Forest) : Prop where
  cons : Consistent db
  sorted : SortedTree cfg db
  order : G.StablySorted cfg.orderBy (valsIn (data db.rows)) (forest db)

theorem Midway.added {G : Forest} (h : Midway cfg db G) {db' : DB} {obj new : Row} {p : Option Nat} (hf : Fresh db new)
    (ha : AddedSorted cfg db db' obj new p) : Midway cfg db' (G.put p .last new.pk) ∧ data db'.rows = data db.rows ++ [(new.pk, new.vals)] ∧
      obj.pk = new.pk ∧ new.pk ∈ db'.rows.map Row.pk ∧ ∀ k ∈ db.rows.map Row.pk, k ∈ db'.rows.map Row.pk := by
  obtain ⟨s, had⟩ := ha.added
  have hkeys : db'.rows.map Row.pk = db.rows.map Row.pk ++ [new.pk] := by rw [← keys_eq, had.data, List.map_append, keys_eq]; rfl
  refine ⟨⟨had.consistent, ha.sorted, ?_⟩, had.data, had.obj.2, ?_, ?_⟩
  · refine h.order.put (s := s) (fun hm => fresh_keys hf (forest_keys h.cons hm)) had.forest (forest_nodup had.consistent p) ?_ ha.place
    intro q a hm
    rw [had.data]
    exact valsIn_append_old (forest_keys h.cons hm)
  · rw [hkeys]; simp
  · intro k hk; rw [hkeys]; simp [hk]

theorem loadsTo (ho : cfg.ordered = true) : LoadsTo (fun db p a => addTo cfg db p ⟨a.1, 0, 0, 0, 0, a.2⟩) Row.pk (Midway cfg) (fun db => data db.rows)
    Handle (fun _ _ => True) (NonNull cfg.orderBy) (fun _ => False) := by
  refine ⟨fun _ => trivial, fun _ _ => trivial, ?_⟩
  intro db G h p k v hm hh hk hv
  left
  have hf : Fresh db ⟨k, 0, 0, 0, 0, v⟩ := fun r hr e => hk (by rw [keys_eq]; exact List.mem_map.2 ⟨r, hr, e⟩)
  have fin : ∀ db' obj, AddedSorted cfg db db' obj ⟨k, 0, 0, 0, 0, v⟩ p → Midway cfg db' (G.put p .last k) ∧ data db'.rows = data db.rows ++ [(k, v)] ∧
      obj.pk = k ∧ Handle db' (some obj) (some k) ∧ True ∧ ∀ h' p', Handle db h' p' → True → Handle db' h' p' := by
    intro db' obj ha
    obtain ⟨a, b, c, d, e⟩ := hm.added hf ha
    refine ⟨a, b, c, ⟨by rw [Option.map_some, c], fun x hx => by cases hx; exact d⟩, trivial, ?_⟩
    rintro h' p' ⟨e1, e2⟩ _
    exact ⟨e1, fun x hx => e x (e2 x hx)⟩
  cases h with
  | none =>
    obtain ⟨rfl, _⟩ := hh
    obtain ⟨db', obj, e, ha⟩ := C16_ns_add_root hm.cons ho hm.sorted hf hv
    exact ⟨db', obj, e, fin db' obj ha⟩
  | some t =>
    obtain ⟨rfl, hmem⟩ := hh
    obtain ⟨t', ht', e'⟩ := List.mem_map.1 (hmem t.pk rfl)
    obtain ⟨db', obj, t2, e, ha⟩ := C16_ns_add_child hm.cons ho hm.sorted ht' e'.symm hf hv
    rw [e'] at ha
    exact ⟨db', obj, by simp only [addTo, e]; rfl, fin db' obj ha⟩

/-- C91 for NS. -/
theorem C91_ns (h : Consistent db) (ho : cfg.ordered = true) (hs : SortedTree cfg db) {parent : Option Row}
    (hp : ∀ p, parent = some p → p.pk ∈ db.rows.map Row.pk) {n : Nest Nat} (hnd : n.labels.Nodup)
    (hfresh : ∀ k ∈ n.labels, ∀ r ∈ db.rows, r.pk ≠ k) {V : Nat → Vals} (hV : ∀ k ∈ n.labels, NonNull cfg.orderBy (V k)) :
    ∃ db', load cfg db parent (n.map (fun k => (k, V k))) = .ok (db', n.labels) ∧ Consistent db' ∧
      LoadedSorted cfg.orderBy (forest db) (forest db') (data db.rows) (data db'.rows) (parent.map Row.pk) n V := by
  have hmem : ∀ k, parent.map Row.pk = some k → k ∈ db.rows.map Row.pk := by
    intro k hk
    cases parent with
    | none => cases hk
    | some p => cases hk; exact hp p rfl
  rcases (loadsTo ho).bulk (s := db) (G := forest db) (h := parent) (p := parent.map Row.pk) (n := n) (V := V) ⟨h, hs, hs.sorted.stably⟩ ⟨rfl, hmem⟩ hnd
    (by
      intro k hk hm
      rw [keys_eq] at hm
      obtain ⟨r, hr, e⟩ := List.mem_map.1 hm
      exact hfresh k hk r hr e) hV
    (fun k hk => by rw [keys_eq]; exact hmem k hk) (fun k hk => forest_nil (by rwa [keys_eq] at hk)) with ⟨db', T, e, hg, hm, hd⟩ | ⟨_, _, f⟩
  · exact ⟨db', e, hm.cons, ⟨T, hg, hm.order⟩, hm.sorted.sorted, hd⟩
  · exact f.elim

end NS

/-! ### MP -/

namespace MP

variable {cfg : Cfg} {db : DB}

/-- the state during loading -/
structure Midway (cfg : Cfg) (db : DB) (G : Forest) : Prop where
  cons : Consistent cfg db
  sorted : SortedTree cfg db
  order : G.StablySorted cfg.orderBy (valsIn (data db.rows)) (forest cfg db)

theorem Midway.added (hok : cfg.Ok) {G : Forest} (h : Midway cfg db G) {db' : DB} {obj new : Row} {p : Option Nat} (hf : Fresh db new)
    (ha : SortedAdded cfg db p new db' obj) : Midway cfg db' (G.put p .last new.pk) ∧ data db'.rows = data db.rows ++ [(new.pk, new.vals)] ∧
      obj.pk = new.pk ∧ (∃ r ∈ db'.rows, r.pk = new.pk) ∧ ∀ k, (∃ r ∈ db.rows, r.pk = k) → ∃ r ∈ db'.rows, r.pk = k := by
  obtain ⟨⟨s, had⟩, h2, h3⟩ := ha
  have hfk : new.pk ∉ (data db.rows).map Prod.fst := fun hm => by
    obtain ⟨r, hr, e⟩ := mem_data.1 hm
    exact hf.1 r hr e
  refine ⟨⟨had.consistent, h2, ?_⟩, had.data, had.obj.2, ⟨obj, had.obj⟩, ?_⟩
  · refine h.order.put (s := s) (fun hm => hfk (keys_of_forest hok h.cons _ _ hm)) had.forest (forest_nodup hok had.consistent p) ?_ ?_
    · intro q a hm
      rw [had.data]
      exact valsIn_append_old (keys_of_forest hok h.cons _ _ hm)
    · rwa [valsOf_eq] at h3
  · intro k hk
    rw [← mem_data] at hk ⊢
    rw [had.data, List.map_append, List.mem_append]
    exact Or.inl hk

theorem loadsTo (hok : cfg.Ok) (ho : cfg.ordered = true) : LoadsTo (fun db p a => addTo cfg db p ⟨a.1, [], 0, 0, a.2⟩) Row.pk (Midway cfg)
    (fun db => data db.rows) Handle (fun _ _ => True) (NonNull cfg.orderBy) (· = .pathOverflow) := by
  refine ⟨fun _ => trivial, fun _ _ => trivial, ?_⟩
  intro db G h p k v hm hh hk hv
  have hf : Fresh db ⟨k, [], 0, 0, v⟩ := ⟨fun r hr e => hk (mem_data.2 ⟨r, hr, e⟩), rfl⟩
  have fin : ∀ db' obj, SortedAdded cfg db p ⟨k, [], 0, 0, v⟩ db' obj → Midway cfg db' (G.put p .last k) ∧ data db'.rows = data db.rows ++ [(k, v)] ∧
      obj.pk = k ∧ Handle db' (some obj) (some k) ∧ True ∧ ∀ h' p', Handle db h' p' → True → Handle db' h' p' := by
    intro db' obj ha
    obtain ⟨a, b, c, d, e⟩ := hm.added hok hf ha
    refine ⟨a, b, c, ⟨by rw [c], by rw [c]; exact d⟩, trivial, ?_⟩
    intro h' p' hh' _
    cases h' with
    | none => exact hh'
    | some o => exact ⟨hh'.1, e _ hh'.2⟩
  cases h with
  | none =>
    have hp : p = none := hh
    subst hp
    rcases C16_add_root hok hm.cons ho hm.sorted hf hv with ⟨db', obj, e, ha⟩ | ⟨e, _⟩
    · exact Or.inl ⟨db', obj, e, fin db' obj ha⟩
    · exact Or.inr ⟨_, e, rfl⟩
  | some t =>
    obtain ⟨rfl, t', ht', e'⟩ := hh
    rcases C16_add_child hok hm.cons ho hm.sorted ht' e'.symm hf hv with ⟨db', obj, t2, e, ha⟩ | ⟨e, _⟩
    · rw [e'] at ha
      exact Or.inl ⟨db', obj, by simp only [addTo, e]; rfl, fin db' obj ha⟩
    · exact Or.inr ⟨_, by simp only [addTo, e]; rfl, rfl⟩

/-- C91 for MP: or `PathOverflow`, and then nothing is stored. -/
theorem C91_mp (hok : cfg.Ok) (h : Consistent cfg db) (ho : cfg.ordered = true) (hs : SortedTree cfg db) {parent : Option Row}
    (hp : ∀ p, parent = some p → p.pk ∈ db.rows.map Row.pk) {n : Nest Nat} (hnd : n.labels.Nodup)
    (hfresh : ∀ k ∈ n.labels, ∀ r ∈ db.rows, r.pk ≠ k) {V : Nat → Vals} (hV : ∀ k ∈ n.labels, NonNull cfg.orderBy (V k)) :
    (∃ db', load cfg db parent (n.map (fun k => (k, V k))) = .ok (db', n.labels) ∧ Consistent cfg db' ∧
      LoadedSorted cfg.orderBy (forest cfg db) (forest cfg db') (data db.rows) (data db'.rows) (parent.map Row.pk) n V) ∨
    load cfg db parent (n.map (fun k => (k, V k))) = .error .pathOverflow := by
  have hmem : ∀ k, parent.map Row.pk = some k → ∃ r ∈ db.rows, r.pk = k := by
    intro k hk
    cases parent with
    | none => cases hk
    | some p => cases hk; exact List.mem_map.1 (hp p rfl)
  have hh : Handle db parent (parent.map Row.pk) := by
    cases parent with
    | none => rfl
    | some p => exact ⟨rfl, hmem _ rfl⟩
  have hso := hs.sorted
  rw [valsOf_eq] at hso
  rcases (loadsTo hok ho).bulk (s := db) (G := forest cfg db) (h := parent) (p := parent.map Row.pk) (n := n) (V := V) ⟨h, hs, hso.stably⟩ hh hnd
    (by
      intro k hk hm
      obtain ⟨r, hr, e⟩ := mem_data.1 hm
      exact hfresh k hk r hr e) hV
    (fun k hk => mem_data.2 (hmem k hk))
    (fun k hk => (isForestOn_forest hok h).outside k (fun hm => hk (mem_data.2 (List.mem_map.1 hm)))) with ⟨db', T, e, hg, hm, hd⟩ | ⟨_, e, rfl⟩
  · have := hm.sorted.sorted
    rw [valsOf_eq] at this
    exact Or.inl ⟨db', e, hm.cons, ⟨T, hg, hm.order⟩, this, hd⟩
  · exact Or.inr e

end MP

/-! ### AL -/

namespace AL

variable {cfg : Cfg} {db : DB}

/-- the state during loading -/
structure Midway (cfg : Cfg) (db : DB) (G : Forest) : Prop where
  wf : Wf cfg db
  nonNull : ∀ r ∈ db.rows, NonNull cfg.orderBy r.vals
  same : G.Near (forest cfg db)

theorem Midway.added {G : Forest} (h : Midway cfg db G) {db' : DB} {obj new : Row} {p : Option Nat} (hf : Fresh db new)
    (hv : NonNull cfg.orderBy new.vals) (ha : SortedAdded cfg db db' obj new p) : Midway cfg db' (G.put p .last new.pk) := by
  obtain ⟨k1, k2, k3⟩ := ha.obj
  have hpf := fun q => PF_nodup (cfg := cfg) ha.wf.ai q
  have key : ∀ q k, k ∈ PF cfg db'.rows q ↔ k ∈ PF cfg db.rows q ∨ (q = p ∧ k = new.pk) := by
    intro q k
    rw [mem_PF, mem_PF, ha.rows]
    constructor
    · rintro ⟨r, hr, e1, e2⟩
      rcases List.mem_append.1 hr with hr | hr
      · exact Or.inl ⟨r, hr, e1, e2⟩
      · rw [List.mem_singleton] at hr; subst hr
        exact Or.inr ⟨by rw [← e1, k3], by rw [← e2, k1]⟩
    · rintro (⟨r, hr, e⟩ | ⟨rfl, rfl⟩)
      · exact ⟨r, List.mem_append_left _ hr, e⟩
      · exact ⟨obj, by simp, k3, k1⟩
  refine ⟨ha.wf, ?_, ?_⟩
  · intro r hr
    rw [ha.rows] at hr
    rcases List.mem_append.1 hr with hr | hr
    · exact h.nonNull r hr
    · rw [List.mem_singleton] at hr; subst hr; rw [k2]; exact hv
  · refine h.same.put_last ?_ ?_
    · rw [forest_eq ha.wf.ai, forest_eq h.wf.ai, List.perm_ext_iff_of_nodup (hpf p)]
      · intro a; rw [key, List.mem_cons]; simp [or_comm]
      · rw [List.nodup_cons]
        refine ⟨?_, PF_nodup h.wf.ai p⟩
        intro hm
        obtain ⟨r, hr, _, e⟩ := mem_PF.1 hm
        exact hf r hr e
    · intro q hq
      rw [forest_eq ha.wf.ai, forest_eq h.wf.ai, List.perm_ext_iff_of_nodup (hpf q) (PF_nodup h.wf.ai q)]
      intro a; rw [key]; simp [hq]

theorem loadsTo (ho : cfg.ordered = true) : LoadsTo (fun db p a => addTo cfg db p ⟨a.1, none, 0, a.2⟩) (fun e : Row × Option Int => e.1.pk) (Midway cfg)
    (fun db => data db.rows) Handle (fun _ _ => True) (NonNull cfg.orderBy) (fun _ => False) := by
  refine ⟨fun _ => trivial, fun _ _ => trivial, ?_⟩
  intro db G h p k v hm hh hk hv
  left
  have hf : Fresh db ⟨k, none, 0, v⟩ := fun r hr e => hk (List.mem_map.2 ⟨(r.pk, r.vals), List.mem_map.2 ⟨r, hr, rfl⟩, e⟩)
  have fin : ∀ db' obj c, SortedAdded cfg db db' obj ⟨k, none, 0, v⟩ p → Midway cfg db' (G.put p .last k) ∧ data db'.rows = data db.rows ++ [(k, v)] ∧
      obj.pk = k ∧ Handle db' (some (obj, c)) (some k) ∧ True ∧ ∀ h' p', Handle db h' p' → True → Handle db' h' p' := by
    intro db' obj c ha
    obtain ⟨k1, k2, k3⟩ := ha.obj
    have k1 : obj.pk = k := k1
    have k2 : obj.vals = v := k2
    refine ⟨hm.added hf hv ha, by rw [ha.rows]; simp [data, k1, k2], k1, ⟨by simp [k1], fun x hx => by cases hx; rw [ha.rows]; simp [k1]⟩, trivial, ?_⟩
    rintro h' p' ⟨e1, e2⟩ _
    exact ⟨e1, fun x hx => by rw [ha.rows, List.map_append]; exact List.mem_append_left _ (e2 x hx)⟩
  cases h with
  | none =>
    obtain ⟨rfl, _⟩ := hh
    obtain ⟨db', obj, e, ha⟩ := C16_al_add_root_partial ho hm.wf hf rfl
    exact ⟨db', (obj, some 1), by simp only [addTo, e]; rfl, fin db' obj _ ha⟩
  | some t =>
    obtain ⟨t, c⟩ := t
    obtain ⟨rfl, hmem⟩ := hh
    obtain ⟨t', ht', e'⟩ := List.mem_map.1 (hmem t.pk rfl)
    obtain ⟨db', obj, c', e, ha⟩ := C16_al_add_child_partial ho hm.wf ht' e'.symm (cached := c) hf
    rw [e'] at ha
    exact ⟨db', (obj, c'), e, fin db' obj _ ha⟩

/-- C91 for AL (partial: the order of siblings with equal values is not stored, the database chooses it). -/
theorem C91_al_partial (h : Wf cfg db) (ho : cfg.ordered = true) (hn : ∀ r ∈ db.rows, NonNull cfg.orderBy r.vals) {parent : Option (Row × Option Int)}
    (hp : ∀ p, parent = some p → p.1.pk ∈ db.rows.map Row.pk) {n : Nest Nat} (hnd : n.labels.Nodup)
    (hfresh : ∀ k ∈ n.labels, ∀ r ∈ db.rows, r.pk ≠ k) {V : Nat → Vals} (hV : ∀ k ∈ n.labels, NonNull cfg.orderBy (V k)) :
    ∃ db', load cfg db parent (n.map (fun k => (k, V k))) = .ok (db', n.labels) ∧ Wf cfg db' ∧
      LoadedBelow (forest cfg db) (forest cfg db') (data db.rows) (data db'.rows) (parent.map (fun e => e.1.pk)) n V ∧
      (forest cfg db').SortedBy cfg.orderBy (valsIn (data db'.rows)) := by
  have hmem : ∀ k, parent.map (fun e => e.1.pk) = some k → k ∈ db.rows.map Row.pk := by
    intro k hk
    cases parent with
    | none => cases hk
    | some p => cases hk; exact hp p rfl
  have hkeys : (data db.rows).map Prod.fst = db.rows.map Row.pk := by simp [data]
  rcases (loadsTo ho).bulk (s := db) (G := forest cfg db) (h := parent) (p := parent.map (fun e => e.1.pk)) (n := n) (V := V)
    ⟨h, hn, fun _ => .refl _⟩ ⟨rfl, hmem⟩ hnd
    (by
      intro k hk hm
      rw [hkeys] at hm
      obtain ⟨r, hr, e⟩ := List.mem_map.1 hm
      exact hfresh k hk r hr e) hV
    (fun k hk => by rw [hkeys]; exact hmem k hk)
    (fun k hk => by
      rw [hkeys] at hk
      rw [forest_eq h.ai, List.eq_nil_iff_forall_not_mem]
      intro y hy
      obtain ⟨r, hr, e, _⟩ := mem_PF.1 hy
      obtain ⟨t, ht, e2⟩ := h.ai.exist r hr k e
      exact hk (List.mem_map.2 ⟨t, ht, e2⟩)) with ⟨db', T, e, hg, hm, hd⟩ | ⟨_, _, f⟩
  · exact ⟨db', e, hm.wf, ⟨⟨T, hg, hm.same⟩, hd⟩, C16_al_sorted ho hm.wf hm.nonNull⟩
  · exact f.elim

end AL

/-! ### LT -/

namespace LT

variable {cfg : Cfg} {db : DB}

/-- the state during loading -/
structure Midway (db : DB) (G : Forest) : Prop where
  cons : Consistent db
  same : G.Near (forest db)

theorem SortedAddition.facts {S : List Row} {pre : Path} {new : Row} {p : Option Nat} {out : Except Err (DB × Row)}
    (h : SortedAddition cfg db S pre new p out) : (∃ db' obj s C, out = .ok (db', obj) ∧ Added db db' obj new p s C) ∨ out = .error .valueError := by
  rcases h with ⟨b, _, db', obj, e, ha⟩ | ⟨_, ⟨db', l, s, e, ha, _⟩ | ⟨e, _⟩⟩
  · exact Or.inl ⟨db', obj, _, _, e, ha⟩
  · exact Or.inl ⟨db', _, s, _, e, ha⟩
  · exact Or.inr e

theorem Midway.added {G : Forest} (h : Midway db G) {db' : DB} {obj new : Row} {hd : Option Row} {p : Option Nat} (hh : Handle db hd p) {s : Slot}
    {C : Prop} (hf : Fresh db new) (ha : Added db db' obj new p s C) : Midway db' (G.put p .last new.pk) ∧ pathOf hd <+: obj.path ∧
      ∀ h' p', Handle db h' p' → pathOf h' <+: pathOf hd → Handle db' h' p' := by
  have hc : Consistent db' := consistent_iff.2 ha.inv
  have hu : ((forest db).put p s new.pk).UpToRight (forest db') p new.pk := by
    rw [forest_eq h.cons.inv.inv, forest_eq hc.inv.inv]; exact ha.near
  have hpre : ∀ h' p', Handle db h' p' → pathOf h' <+: pathOf hd → Handle db' h' p' := by
    rintro h' p' ⟨e1, e2⟩ hpre
    refine ⟨e1, ?_⟩
    rintro t rfl
    have ht := e2 t rfl
    cases hd with
    | none =>
      have : t.path = [] := List.prefix_nil.1 hpre
      exact absurd this (fun e => by have := len_pos h.cons.inv.inv ht; simp [e] at this)
    | some q =>
      refine ha.frame q (hh.2 q rfl) hh.1.symm t ht ?_
      intro l u e
      have := hpre.length_le
      rw [show pathOf (some q) = q.path from rfl, show pathOf (some t) = t.path from rfl, e] at this
      simp at this
  refine ⟨⟨hc, h.same.put_last ?_ ?_⟩, ?_, hpre⟩
  · exact perm_of_upToRight (fun hm => fresh_keys hf (forest_keys h.cons.inv.inv hm)) hu (forest_nodup hc.inv.inv p)
  · intro q hq
    rw [hu.1 q hq]
    simp [Forest.put, hq]
  · have hh' := hpre hd p hh (List.prefix_refl _)
    have hm : obj.pk ∈ forest db' p := by
      obtain ⟨_, l, r, r', _, e, _⟩ := hu
      rw [e, ha.obj.2]; simp
    have := (mem_forest hc.inv.inv ha.obj.1).1 hm
    rw [← hh'.at hc.inv.inv, par_iff hc.inv.inv hh'.isPar ha.obj.1] at this
    rw [← this]
    exact List.dropLast_prefix _

theorem loadsTo (ho : cfg.ordered = true) : LoadsTo (fun db p a => addTo cfg db p ⟨a.1, [], a.2⟩) Row.pk Midway
    (fun db => data db.rows) Handle (fun h' h => pathOf h' <+: pathOf h) (fun _ => True) (· = .valueError) := by
  refine ⟨fun _ => List.prefix_refl _, fun h1 h2 => h1.trans h2, ?_⟩
  intro db G h p k v hm hh hk _
  have hf : Fresh db ⟨k, [], v⟩ := fun r hr e => hk (by rw [keys_eq]; exact List.mem_map.2 ⟨r, hr, e⟩)
  have hout : ∃ S pre, SortedAddition cfg db S pre ⟨k, [], v⟩ p (addTo cfg db h ⟨k, [], v⟩) := by
    cases h with
    | none => obtain ⟨rfl, _⟩ := hh; exact ⟨_, _, addRoot_sorted ho hm.cons.inv hf⟩
    | some t => obtain ⟨rfl, ht⟩ := hh; exact ⟨_, _, addChild_sorted ho hm.cons.inv (ht t rfl) hf⟩
  obtain ⟨S, pre, hout⟩ := hout
  rcases hout.facts with ⟨db', obj, s, C, e, ha⟩ | e
  · obtain ⟨a, b, c⟩ := hm.added hh hf ha
    exact Or.inl ⟨db', obj, e, a, ha.data, ha.obj.2, ⟨by rw [Option.map_some, ha.obj.2], fun t ht => by cases ht; exact ha.obj.1⟩, b, c⟩
  · exact Or.inr ⟨_, e, rfl⟩

/-- C91 for LT (partial: not the order, see C16_lt_fails; or ValueError when no label is left, and then nothing is stored). -/
theorem C91_lt_partial (h : Consistent db) (ho : cfg.ordered = true) {parent : Option Row}
    (hp : ∀ p, parent = some p → p ∈ db.rows) {n : Nest Nat} (hnd : n.labels.Nodup)
    (hfresh : ∀ k ∈ n.labels, ∀ r ∈ db.rows, r.pk ≠ k) {V : Nat → Vals} :
    (∃ db', load cfg db parent (n.map (fun k => (k, V k))) = .ok (db', n.labels) ∧ Consistent db' ∧
      LoadedBelow (forest db) (forest db') (data db.rows) (data db'.rows) (parent.map Row.pk) n V) ∨
    load cfg db parent (n.map (fun k => (k, V k))) = .error .valueError := by
  rcases (loadsTo ho).bulk (s := db) (G := forest db) (h := parent) (p := parent.map Row.pk) (n := n) (V := V) ⟨h, fun _ => .refl _⟩ ⟨rfl, hp⟩ hnd
    (by
      intro k hk hm
      rw [keys_eq] at hm
      obtain ⟨r, hr, e⟩ := List.mem_map.1 hm
      exact hfresh k hk r hr e) (fun _ _ => trivial)
    (fun k hk => by
      rw [keys_eq]
      cases parent with
      | none => cases hk
      | some p => cases hk; exact List.mem_map_of_mem (hp p rfl))
    (fun k hk => forest_nil (by rwa [keys_eq] at hk)) with ⟨db', T, e, hg, hm, hd⟩ | ⟨_, e, rfl⟩
  · exact Or.inl ⟨db', e, hm.cons, ⟨T, hg, hm.same⟩, hd⟩
  · exact Or.inr e

end LT

/-- C91 says everything about the tree: there is only one result for which it holds. -/
theorem C91_determines {ob : List (Nat × Bool)} {F F1 F2 : Forest} {D D' : List (Nat × Vals)} {p : Option Nat} {n : Nest Nat} {V : Nat → Vals}
    (hnd : n.labels.Nodup) (hF : ∀ q, (F1 q).Nodup) (h1 : LoadedSorted ob F F1 D D' p n V) (h2 : LoadedSorted ob F F2 D D' p n V) : F1 = F2 := by
  obtain ⟨T1, g1, s1⟩ := h1.tree
  obtain ⟨T2, g2, s2⟩ := h2.tree
  have e := (g1.eq hnd).trans (g2.eq hnd).symm
  subst e
  funext q
  obtain ⟨p1, w1⟩ := s1 q
  obtain ⟨p2, w2⟩ := s2 q
  have hn : (T1 q).Nodup := p1.nodup_iff.1 (hF q)
  refine (p1.trans p2.symm).eq_of_pairwise (le := Precedes ob (valsIn D') (T1 q)) ?_ w1 w2
  rintro a b - - (ha | ⟨ha, sa⟩) (hb | ⟨hb, sb⟩)
  · exact absurd hb (keyLt_asymm ha)
  · exact absurd ha hb
  · exact absurd hb ha
  · by_contra hne
    have hp := List.pairwise_iff_getElem.1 hn
    rw [List.sublist_iff_exists_fin_orderEmbedding_get_eq] at sa sb
    obtain ⟨f, hf⟩ := sa
    obtain ⟨g, hg⟩ := sb
    have inj : ∀ i j : Fin (T1 q).length, (T1 q).get i = (T1 q).get j → i = j := fun i j e => (List.nodup_iff_injective_get.1 hn) e
    have e1 := inj (f ⟨0, by simp⟩) (g ⟨1, by simp⟩) (by rw [← hf, ← hg]; rfl)
    have e2 := inj (f ⟨1, by simp⟩) (g ⟨0, by simp⟩) (by rw [← hf, ← hg]; rfl)
    have l1 : f ⟨0, by simp⟩ < f ⟨1, by simp⟩ := f.lt_iff_lt.2 (by simp [Fin.lt_def])
    have l2 : g ⟨0, by simp⟩ < g ⟨1, by simp⟩ := g.lt_iff_lt.2 (by simp [Fin.lt_def])
    rw [e1, e2] at l1
    exact absurd l1 (not_lt.2 l2.le)

/-! ### Cases -/

/-- values and keys out of order: 12 has the values of 3 and 4, 10 and 13 are equal -/
def exOut : Nest Nat := .cons 10 (.cons 14 .nil (.cons 15 .nil .nil)) (.cons 11 .nil (.cons 12 .nil (.cons 13 .nil .nil)))

def exOutVals (k : Nat) : Vals := [some (if k = 10 ∨ k = 13 then 2 else if k = 11 then 0 else if k = 12 then 3 else if k = 14 then 8 else 7)]

theorem exOut_nonNull : ∀ k ∈ exOut.labels, NonNull [(0, false)] (exOutVals k) := by
  intro k _ f hf
  simp only [List.mem_cons, List.not_mem_nil, or_false] at hf
  subst hf
  exact ⟨_, rfl⟩

/-- The hypotheses of C91_ns are met by a tree with 1, 3, 3 below its root, and the result is as it should be. -/
example : ∃ db', NS.load NS.exSorted NS.exSDB (some ⟨1, 0, 0, 0, 0, []⟩) (exOut.map (fun k => (k, exOutVals k))) = .ok (db', [10, 14, 15, 11, 12, 13]) ∧
    NS.forest db' (some 1) = [11, 2, 10, 13, 3, 4, 12] ∧ NS.forest db' (some 10) = [15, 14] := by
  obtain ⟨db', e, _, _⟩ := NS.C91_ns (cfg := NS.exSorted) NS.exSDB_inv rfl NS.exSDB_sorted (parent := some ⟨1, 0, 0, 0, 0, []⟩)
    (by rintro p ⟨⟩; decide) (n := exOut) (by decide) (by decide) (V := exOutVals) exOut_nonNull
  have : (NS.load NS.exSorted NS.exSDB (some ⟨1, 0, 0, 0, 0, []⟩) (exOut.map (fun k => (k, exOutVals k)))).toOption.map
      (fun x => (NS.forest x.1 (some 1), NS.forest x.1 (some 10))) = some ([11, 2, 10, 13, 3, 4, 12], [15, 14]) := by
    rw [NS.load, loadBulk_eq]; decide +kernel
  rw [e] at this
  have := Option.some.inj this
  exact ⟨db', e, congrArg Prod.fst this, congrArg Prod.snd this⟩

theorem exOutMP_nonNull : ∀ k ∈ exOut.labels, NonNull MP.exCfgS.orderBy (exOutVals k ++ [some 0]) := by
  intro k _ f hf
  simp only [MP.exCfgS, List.mem_cons, List.not_mem_nil, or_false] at hf
  rcases hf with rfl | rfl <;> exact ⟨_, rfl⟩

/-- The hypotheses of C91_mp are met, and the load succeeds. -/
example : ∃ db', MP.load MP.exCfgS MP.exDBS (some ⟨2, [], 0, 0, []⟩) (exOut.map (fun k => (k, exOutVals k ++ [some 0]))) = .ok (db', [10, 14, 15, 11, 12, 13]) ∧
    MP.forest MP.exCfgS db' (some 2) = [4, 11, 10, 13, 5, 12] ∧ MP.forest MP.exCfgS db' (some 10) = [15, 14] := by
  have : (MP.load MP.exCfgS MP.exDBS (some ⟨2, [], 0, 0, []⟩) (exOut.map (fun k => (k, exOutVals k ++ [some 0])))).toOption.map
      (fun x => (MP.forest MP.exCfgS x.1 (some 2), MP.forest MP.exCfgS x.1 (some 10))) = some ([4, 11, 10, 13, 5, 12], [15, 14]) := by
    rw [MP.load, loadBulk_eq]; decide +kernel
  rcases MP.C91_mp MP.exCfgS_ok MP.exDBS_consistent rfl ⟨MP.exDBS_sorted.1, MP.exDBS_sorted.2⟩ (parent := some ⟨2, [], 0, 0, []⟩)
    (by rintro p ⟨⟩; decide) (n := exOut) (by decide) (by decide) (V := fun k => exOutVals k ++ [some 0]) exOutMP_nonNull with ⟨db', e, _, _⟩ | e
  · rw [e] at this
    have := Option.some.inj this
    exact ⟨db', e, congrArg Prod.fst this, congrArg Prod.snd this⟩
  · rw [e] at this; cases this

/-- The hypotheses of C91_al_partial are met. -/
example : ∃ db', AL.load AL.exSorted AL.exSDB (some (⟨1, none, 0, []⟩, none)) (exOut.map (fun k => (k, exOutVals k))) = .ok (db', [10, 14, 15, 11, 12, 13]) ∧
    (AL.forest AL.exSorted db').SortedBy AL.exSorted.orderBy (valsIn (AL.data db'.rows)) := by
  obtain ⟨db', e, _, _, hs⟩ := AL.C91_al_partial (cfg := AL.exSorted) (AL.wf_of_ai AL.exSDB_inv.toAI) rfl (by
      intro r hr f hf
      simp only [AL.exSorted, List.mem_cons, List.not_mem_nil, or_false] at hf
      simp only [AL.exSDB, List.mem_cons, List.not_mem_nil, or_false] at hr
      subst hf
      rcases hr with rfl | rfl | rfl | rfl | rfl <;> exact ⟨_, rfl⟩) (parent := some (⟨1, none, 0, []⟩, none))
    (by rintro p ⟨⟩; decide) (n := exOut) (by decide) (by decide) (V := exOutVals) exOut_nonNull
  exact ⟨db', e, hs⟩

/-- The hypotheses of C91_lt_partial are met, and the load succeeds. -/
example : ∃ db', LT.load LT.exSorted LT.exSDB (some ⟨1, [[65]], [some 5]⟩) (exOut.map (fun k => (k, exOutVals k))) = .ok (db', [10, 14, 15, 11, 12, 13]) ∧
    (LT.forest db' (some 10)).Perm [14, 15] := by
  have : (LT.load LT.exSorted LT.exSDB (some ⟨1, [[65]], [some 5]⟩) (exOut.map (fun k => (k, exOutVals k)))).toOption.map
      (fun x => LT.forest x.1 (some 10)) = some [15, 14] := by
    rw [LT.load, loadBulk_eq]; decide +kernel
  rcases LT.C91_lt_partial (LT.consistent_iff.2 LT.exSDB_inv) (cfg := LT.exSorted) rfl (parent := some ⟨1, [[65]], [some 5]⟩)
    (by rintro p ⟨⟩; decide) (n := exOut) (by decide) (by decide) (V := exOutVals) with ⟨db', e, _, _⟩ | e
  · rw [e] at this
    exact ⟨db', e, by rw [show LT.forest db' (some 10) = [15, 14] from Option.some.inj this]; decide⟩
  · rw [e] at this; cases this

/-- C91 fails for LT: four items loaded into an empty table, with the values 3, 2, 1, 4, end as 1, 2, 4, 3. -/
theorem LT.C91_lt_fails : ∃ (n : Nest Nat) (V : Nat → Vals) (db' : LT.DB), n.labels.Nodup ∧ (∀ k ∈ n.labels, NonNull LT.exSorted.orderBy (V k)) ∧
    LT.load LT.exSorted ⟨[], []⟩ none (n.map (fun k => (k, V k))) = .ok (db', n.labels) ∧
    (LT.forest db' none).map (valsIn (LT.data db'.rows)) = [[some 1], [some 2], [some 4], [some 3]] ∧
    ¬ (LT.forest db').SortedBy LT.exSorted.orderBy (valsIn (LT.data db'.rows)) := by
  refine ⟨.cons 1 .nil (.cons 2 .nil (.cons 3 .nil (.cons 4 .nil .nil))), fun k => [some (if k = 4 then 4 else 4 - k)],
    ⟨[⟨1, [[65, 65]], [some 3]⟩, ⟨2, [[48, 65]], [some 2]⟩, ⟨3, [[48]], [some 1]⟩, ⟨4, [[65]], [some 4]⟩], [.movedRight [[48]]]⟩, by decide, ?_, ?_, by decide, ?_⟩
  · intro k _ f hf
    simp only [LT.exSorted, List.mem_cons, List.not_mem_nil, or_false] at hf
    subst hf
    exact ⟨_, rfl⟩
  · rw [LT.load, loadBulk_eq]; decide +kernel
  · intro h
    exact absurd (h none) (by decide)

end Verif
