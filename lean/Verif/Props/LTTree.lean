/-
C36, and the LT parts of C08, C16, C37 and C46: the operations of the LT backend.
-/
import Verif.Props.LTLabel
import Verif.LT.Example
import Verif.LT.Objects

namespace Verif.LT

variable {cfg : Cfg} {db : DB}

/-! ### Vocabulary -/

/-- A consistent table: keys and paths are unique, paths are not empty and made of labels, and the path of every node that is not a
root continues the path of a stored node by one label. -/
structure Consistent (db : DB) : Prop where
  pks : (db.rows.map Row.pk).Nodup
  paths : (db.rows.map Row.path).Nodup
  labels : ∀ r ∈ db.rows, r.path ≠ [] ∧ ∀ l ∈ r.path, IsLabel l
  parents : ∀ r ∈ db.rows, 2 ≤ r.path.length → ∃ q ∈ db.rows, ∃ l, r.path = q.path ++ [l]

theorem consistent_iff : Consistent db ↔ Inv db.rows := by
  constructor
  · intro h
    refine ⟨⟨h.pks, h.paths, ?_, ?_⟩, fun r hr l hl => isLabel_iff.1 ((h.labels r hr).2 l hl)⟩
    · intro r hr
      exact ⟨by simp, List.length_pos_iff.2 (h.labels r hr).1⟩
    · intro r hr hl
      obtain ⟨q, hq, l, e⟩ := h.parents r hr (by omega)
      exact ⟨q, hq, by rw [pp_one, e]; simp⟩
  · intro h
    refine ⟨h.inv.pkNodup, h.inv.pathNodup, fun r hr => ⟨?_, fun l hl => isLabel_iff.2 (h.labels r hr l hl)⟩, ?_⟩
    · exact List.length_pos_iff.1 (len_pos h.inv hr)
    · intro r hr hl
      obtain ⟨q, hq, e⟩ := h.inv.closed r hr (by omega)
      refine ⟨q, hq, lastLabel r.path, ?_⟩
      rw [e, pp_one]
      exact path_split h.inv hr

theorem Consistent.inv (h : Consistent db) : Inv db.rows := consistent_iff.1 h

/-- A new object: its primary key is not in use (the database chooses it). -/
def Fresh (db : DB) (new : Row) : Prop := ∀ r ∈ db.rows, r.pk ≠ new.pk

/-- The new node stands at slot `s` below `p` and nothing else changed. -/
structure AddedAt (db db' : DB) (obj new : Row) (p : Option Nat) (s : Slot) : Prop where
  consistent : Consistent db'
  forest : forest db' = (forest db).put p s new.pk
  data : data db'.rows = data db.rows ++ [(new.pk, new.vals)]
  obj : obj ∈ db'.rows ∧ obj.pk = new.pk

/-- The new node stands at slot `s` below `p`; nothing else changed but perhaps the order of the siblings to its right. -/
structure AddedNear (db db' : DB) (obj new : Row) (p : Option Nat) (s : Slot) : Prop where
  consistent : Consistent db'
  near : ((LT.forest db).put p s new.pk).UpToRight (LT.forest db') p new.pk
  data : data db'.rows = data db.rows ++ [(new.pk, new.vals)]
  obj : obj ∈ db'.rows ∧ obj.pk = new.pk

/-- The node `x` was moved and the new forest is `F`. -/
structure MovedTo (db db' : DB) (obj x : Row) (F : Forest) : Prop where
  consistent : Consistent db'
  forest : forest db' = F
  data : data db'.rows = data db.rows
  obj : obj ∈ db'.rows ∧ obj.pk = x.pk

/-- The node `x` was moved below `p` and the new forest is `F`, but perhaps for the order of the siblings to its right. -/
structure MovedNear (db db' : DB) (obj x : Row) (F : Forest) (p : Option Nat) : Prop where
  consistent : Consistent db'
  near : F.UpToRight (LT.forest db') p x.pk
  data : data db'.rows = data db.rows
  obj : obj ∈ db'.rows ∧ obj.pk = x.pk

/-- No label of a child of `p` is the label of another one continued by a digit.  Then shifting labels to the right keeps their
order. -/
def TidyLabels (db : DB) (p : Option Nat) : Prop :=
  ∀ r ∈ db.rows, ∀ q ∈ db.rows, r.pk ∈ forest db p → q.pk ∈ forest db p →
    ∀ c t, lastLabel q.path = lastLabel r.path ++ c :: t → 65 ≤ c

/-- All labels of one or two letters are in use below `p`. -/
def Full (db : DB) (p : Option Nat) : Prop :=
  ∀ c, 65 ≤ c → c ≤ 90 → (∃ r ∈ db.rows, r.pk ∈ forest db p ∧ lastLabel r.path = [c]) ∧
    ∀ d, 65 ≤ d → d ≤ 90 → ∃ r ∈ db.rows, r.pk ∈ forest db p ∧ lastLabel r.path = [c, d]

theorem mem_forest (h : PI db.rows) {p : Option Nat} {r : Row} (hr : r ∈ db.rows) : r.pk ∈ forest db p ↔ par db.rows r = p := by
  rw [forest_eq h, mem_PF h]
  constructor
  · rintro ⟨q, hq, e, hk⟩; rwa [← h.pk_inj hq hr hk]
  · intro e; exact ⟨r, hr, e, rfl⟩

theorem keepsOrder_of (h : PI db.rows) {pre : Path} (hpar : IsPar db.rows pre) (ht : TidyLabels db (at? db.rows pre)) :
    KeepsOrder db.rows pre := by
  intro r hr q hq e1 e2 c t e
  exact ht r hr q hq ((mem_forest h hr).2 ((par_iff h hpar hr).2 e1)) ((mem_forest h hq).2 ((par_iff h hpar hq).2 e2)) c t e

theorem full_of (h : PI db.rows) {pre : Path} (hpar : IsPar db.rows pre)
    (hu : ∀ c ∈ upper, (∃ r ∈ db.rows, r.path = pre ++ [[c]]) ∧ ∀ d ∈ upper, ∃ r ∈ db.rows, r.path = pre ++ [[c, d]]) :
    Full db (at? db.rows pre) := by
  have hc : ∀ c, 65 ≤ c → c ≤ 90 → c ∈ upper := by
    have : ∀ d < 91, 65 ≤ d → d ∈ upper := by decide
    intro c h1 h2
    exact this c (by omega) h1
  have key : ∀ {r : Row} {l : Label}, r ∈ db.rows → r.path = pre ++ [l] → r.pk ∈ forest db (at? db.rows pre) ∧ lastLabel r.path = l := by
    intro r l hr e
    refine ⟨(mem_forest h hr).2 ((par_iff h hpar hr).2 (by rw [e]; simp)), by rw [e, lastLabel_append]⟩
  intro c h1 h2
  obtain ⟨⟨r, hr, e⟩, h3⟩ := hu c (hc c h1 h2)
  refine ⟨⟨r, hr, key hr e⟩, ?_⟩
  intro d h4 h5
  obtain ⟨r, hr, e⟩ := h3 d (hc d h4 h5)
  exact ⟨r, hr, key hr e⟩

theorem AddedNear.of (h : Inv db.rows) {db' : DB} {obj new : Row} {p : Option Nat} {s : Slot} {C : Prop}
    (ha : Added db db' obj new p s C) : AddedNear db db' obj new p s :=
  ⟨consistent_iff.2 ha.inv, by rw [forest_eq ha.inv.inv, forest_eq h.inv]; exact ha.near, ha.data, ha.obj⟩

theorem AddedAt.of (h : Inv db.rows) {db' : DB} {obj new : Row} {p : Option Nat} {s : Slot} {C : Prop}
    (ha : Added db db' obj new p s C) (c : C) : AddedAt db db' obj new p s :=
  ⟨consistent_iff.2 ha.inv, by rw [forest_eq ha.inv.inv, forest_eq h.inv]; exact ha.exact c, ha.data, ha.obj⟩

theorem MovedNear.of {db' : DB} {obj x : Row} {F : Forest} {p : Option Nat} {C : Prop} (ha : Moved db db' obj x F p C) :
    MovedNear db db' obj x F p :=
  ⟨consistent_iff.2 ha.inv, by rw [forest_eq ha.inv.inv]; exact ha.near, ha.data, ha.obj⟩

theorem MovedTo.of {db' : DB} {obj x : Row} {F : Forest} {p : Option Nat} {C : Prop} (ha : Moved db db' obj x F p C) (c : C) :
    MovedTo db db' obj x F :=
  ⟨consistent_iff.2 ha.inv, by rw [forest_eq ha.inv.inv]; exact ha.exact c, ha.data, ha.obj⟩

/-! ### C36: additions -/

/-- **C36 `add_child`**: the new node becomes the last child, always.  (The target object is used with its path, so it must be up to
date.) -/
theorem C36_add_child (ho : cfg.ordered = false) (h : Consistent db) {t : Row} (ht : t ∈ db.rows) {new : Row} (hf : Fresh db new) :
    ∃ db' obj, addChild cfg db t new = .ok (db', obj) ∧ AddedAt db db' obj new (some t.pk) .last := by
  obtain ⟨db', obj, e, ha⟩ := addChild_unsorted ho h.inv ht hf
  exact ⟨db', obj, e, .of h.inv ha trivial⟩

/-- **C36 `add_root`** (partial): the new node becomes a root and nothing else changes.  It is the last root if the label found comes
after the labels of the other roots; see `C36_add_root_fails`.  Otherwise ValueError is raised, and then the 702 labels of one or two
letters are all in use. -/
theorem C36_add_root_partial (ho : cfg.ordered = false) (h : Consistent db) {new : Row} (hf : Fresh db new) :
    (∃ db' obj s, addRoot cfg db new = .ok (db', obj) ∧ AddedAt db db' obj new none s ∧
      ((∀ r ∈ db.rows, r.pk ∈ forest db none → r.path < obj.path) → s = .last)) ∨
    (addRoot cfg db new = .error .valueError ∧ Full db none) := by
  rcases addRoot_unsorted ho h.inv hf with ⟨db', l, s, e, ha, hl⟩ | ⟨e, hu⟩
  · refine Or.inl ⟨db', _, s, e, .of h.inv ha trivial, ?_⟩
    intro hlt
    refine hl (fun r hr hrl => hlt r hr ((mem_forest h.inv.inv hr).2 ((par_eq_none h.inv.inv hr).2 ?_)))
    rw [← List.length_eq_zero_iff, List.length_dropLast, hrl]
  · refine Or.inr ⟨e, ?_⟩
    rw [← at_nil h.inv.inv]
    refine full_of h.inv.inv (Or.inl rfl) (fun c hc => ⟨?_, ?_⟩)
    · exact hu.1 c hc
    · exact fun d hd => hu.2 c hc d hd

/-- **C36 `add_sibling`** (partial): the new node stands at the place asked for, and no other node changes parent.  The others keep
their order too, except that siblings to the right of the new node may change places: this does not happen for "last-sibling", nor
if the labels are tidy; see `C36_add_sibling_fails`. -/
theorem C36_add_sibling_partial (ho : cfg.ordered = false) (h : Consistent db) {t : Row} (ht : t ∈ db.rows) {posArg : Option Pos}
    {pos : Pos} (hpos : preparePosForAddSibling false posArg = .ok pos) {new : Row} (hf : Fresh db new) :
    ∃ p, t.pk ∈ forest db p ∧ ∃ db' obj, addSibling cfg db t posArg new = .ok (db', obj) ∧
      AddedNear db db' obj new p (sibAsked t.pk pos) ∧
      (pos = .lastSibling ∨ TidyLabels db p → AddedAt db db' obj new p (sibAsked t.pk pos)) := by
  obtain ⟨db', obj, e, ha⟩ := addSibling_unsorted ho h.inv ht hpos hf
  have hpar := IsPar.drop h.inv.inv ht
  have hpt := (par_iff h.inv.inv hpar ht).2 rfl
  refine ⟨_, (mem_forest h.inv.inv ht).2 rfl, db', obj, e, .of h.inv ha, ?_⟩
  rintro (c | c)
  · exact .of h.inv ha (Or.inl c)
  · exact .of h.inv ha (Or.inr (keepsOrder_of h.inv.inv hpar (by rw [← hpt]; exact c)))

/-! ### C36: moves -/

/-- **C36 `move`** (partial): every move that is not refused succeeds and gives the forest asked for, except that siblings to the right
of the moved node may change places: not for "last-sibling" and "last-child", nor if the labels are tidy. -/
theorem C36_move_partial (ho : cfg.ordered = false) (h : Consistent db) {x t : Row} (hx : x ∈ db.rows) (ht : t ∈ db.rows)
    {posArg : Option Pos} {pos : Pos} (hpos : preparePosForMove false posArg = .ok pos)
    (hr : ¬ (forest db).MoveRefused x.pk t.pk pos) :
    ∃ p, t.pk ∈ forest db p ∧ ∃ db' obj, move cfg db x t posArg = .ok (db', obj) ∧
      MovedNear db db' obj x ((forest db).moveAsked x.pk p t.pk pos) (pos.dest p t.pk) ∧
      (pos = .lastSibling ∨ pos = .lastChild ∨ TidyLabels db (pos.dest p t.pk) →
        MovedTo db db' obj x ((forest db).moveAsked x.pk p t.pk pos)) := by
  have hi := h.inv
  refine ⟨_, (mem_forest hi.inv ht).2 rfl, ?_⟩
  rw [forest_eq hi.inv] at hr ⊢
  obtain ⟨db', obj, e, hm⟩ := move_unsorted ho hi hx ht hpos hr
  refine ⟨db', obj, e, .of hm, ?_⟩
  intro c
  refine .of hm ?_
  rcases c with c | c | c
  · exact Or.inl c
  · exact Or.inr (Or.inl c)
  · refine Or.inr (Or.inr (keepsOrder_of hi.inv ?_ ?_))
    · split
      · exact Or.inr ⟨t, ht, rfl⟩
      · exact IsPar.drop hi.inv ht
    · rw [dest_eq hi.inv ht]; exact c

/-- **C08 for LT**, with or without `node_order_by`. -/
theorem C08_lt (h : Consistent db) {x t : Row} (hx : x ∈ db.rows) (ht : t ∈ db.rows) {posArg : Option Pos} {pos : Pos}
    (hpos : preparePosForMove cfg.ordered posArg = .ok pos) (hr : (forest db).MoveRefused x.pk t.pk pos) :
    move cfg db x t posArg = .error .invalidMoveToDescendant := by
  rw [forest_eq h.inv.inv] at hr
  exact move_refused h.inv.inv hx ht hpos hr

/-- the labels of the example are tidy; additions and moves at all kinds of places, and a refused move -/
example : Consistent exDB ∧ TidyLabels exDB (some 1) ∧ forest exDB none = [1, 5] ∧ forest exDB (some 1) = [2, 3] ∧
    ((addRoot ⟨[]⟩ exDB ⟨9, [], []⟩).toOption.map (fun x => forest x.1 none)) = some [1, 5, 9] ∧
    ((addSibling ⟨[]⟩ exDB ⟨3, [[65], [66]], []⟩ (some .left) ⟨9, [], []⟩).toOption.map (fun x => (forest x.1 (some 1), forest x.1 (some 3)))) = some ([2, 9, 3], [4]) ∧
    ((addSibling ⟨[]⟩ exDB ⟨1, [[65]], []⟩ (some .firstSibling) ⟨9, [], []⟩).toOption.map (fun x => forest x.1 none)) = some [9, 1, 5] ∧
    ((addChild ⟨[]⟩ exDB ⟨1, [[65]], []⟩ ⟨9, [], []⟩).toOption.map (fun x => forest x.1 (some 1))) = some [2, 3, 9] ∧
    ((move ⟨[]⟩ exDB ⟨3, [[65], [66]], []⟩ ⟨5, [[66]], []⟩ (some .left)).toOption.map (fun x => (forest x.1 none, forest x.1 (some 3)))) = some ([1, 3, 5], [4]) ∧
    ((move ⟨[]⟩ exDB ⟨3, [[65], [66]], []⟩ ⟨2, [[65], [65]], []⟩ (some .left)).toOption.map (fun x => (forest x.1 (some 1), forest x.1 (some 3)))) = some ([3, 2], [4]) ∧
    ((move ⟨[]⟩ exDB ⟨2, [[65], [65]], []⟩ ⟨2, [[65], [65]], []⟩ (some .right)).toOption.map (fun x => forest x.1 (some 1))) = some [2, 3] ∧
    (forest exDB).MoveRefused 1 4 .left := by
  refine ⟨consistent_iff.2 exDB_inv, ?_, by decide, by decide, by decide, by decide, by decide, by decide, by decide, by decide, by decide,
    Or.inl (.step (.child (d := 3) (by decide)) (by decide))⟩
  intro r hr q hq h1 h2 c t e
  have hl : ∀ r ∈ exDB.rows, r.pk ∈ forest exDB (some 1) → (lastLabel r.path).length = 1 := by decide
  have := congrArg List.length e
  simp [hl r hr h1, hl q hq h2] at this

/-! ### Where C36 fails -/

/-- **`add_root` does not always make the new node the last root**: roots 1 and 2 were added (labels A and B) and 1 was deleted; the
new root gets the label A and comes first. -/
theorem C36_add_root_fails : ∃ db, Consistent db ∧ ∃ new, Fresh db new ∧ ∃ db' obj, addRoot ⟨[]⟩ db new = .ok (db', obj) ∧
    forest db none = [2] ∧ forest db' none = [3, 2] :=
  ⟨⟨[⟨2, [[66]], []⟩], []⟩, consistent_iff.2 (inv_of_check (by decide)), ⟨3, [], []⟩, by unfold Fresh; decide, _, _, rfl, by decide, by decide⟩

/-- the table of the witness is what the API produces -/
example : ((addRoot ⟨[]⟩ ⟨[], []⟩ ⟨1, [], []⟩).toOption.bind (fun a => (addRoot ⟨[]⟩ a.1 ⟨2, [], []⟩).toOption.map (fun b =>
    (delete b.1 (fun r => r.pk == 1)).rows))) = some [⟨2, [[66]], []⟩] := by decide

/-- the 27th root gets the label AA, which sorts second -/
example : generateLabel (upper.map (fun c => [c])) none none = .ok [65, 65] ∧ ([65, 65] : Label) < [66] := by decide

/-- **`add_sibling` can change the order of other nodes**: with the roots 1, 2 (labels A, B), 3 added to the right of 1 (label A0) and 4
added as first sibling (label 0), adding 5 as first sibling shifts A to AA and A0 to A0A, so that 1 and 3 change places. -/
theorem C36_add_sibling_fails : ∃ db t new, Consistent db ∧ t ∈ db.rows ∧ Fresh db new ∧
    ∃ db' obj, addSibling ⟨[]⟩ db t (some .firstSibling) new = .ok (db', obj) ∧
      forest db none = [4, 1, 3, 2] ∧ forest db' none = [5, 4, 3, 1, 2] :=
  ⟨⟨[⟨1, [[65]], []⟩, ⟨2, [[66]], []⟩, ⟨3, [[65, 48]], []⟩, ⟨4, [[48]], []⟩], []⟩, ⟨1, [[65]], []⟩, ⟨5, [], []⟩,
    consistent_iff.2 (inv_of_check (by decide)), by decide, by unfold Fresh; decide, _, _, rfl, by decide, by decide⟩

/-- the table of the witness is what the API produces -/
example : ((addRoot ⟨[]⟩ ⟨[], []⟩ ⟨1, [], []⟩).toOption.bind (fun a => (addRoot ⟨[]⟩ a.1 ⟨2, [], []⟩).toOption.bind (fun b =>
    (addSibling ⟨[]⟩ b.1 ⟨1, [[65]], []⟩ (some .right) ⟨3, [], []⟩).toOption.bind (fun c =>
    (addSibling ⟨[]⟩ c.1 ⟨1, [[65]], []⟩ (some .firstSibling) ⟨4, [], []⟩).toOption.map (fun d => d.1.rows))))) =
    some [⟨1, [[65]], []⟩, ⟨2, [[66]], []⟩, ⟨3, [[65, 48]], []⟩, ⟨4, [[48]], []⟩] := by decide

/-- **`move` can do so, too**: moving 2 to the first place. -/
theorem C36_move_fails : ∃ db x t, Consistent db ∧ x ∈ db.rows ∧ t ∈ db.rows ∧ ¬ (forest db).MoveRefused x.pk t.pk .firstSibling ∧
    ∃ db' obj, move ⟨[]⟩ db x t (some .firstSibling) = .ok (db', obj) ∧
      forest db none = [4, 1, 3, 2] ∧ forest db' none = [2, 4, 3, 1] := by
  refine ⟨⟨[⟨1, [[65]], []⟩, ⟨2, [[66]], []⟩, ⟨3, [[65, 48]], []⟩, ⟨4, [[48]], []⟩], []⟩, ⟨2, [[66]], []⟩, ⟨1, [[65]], []⟩,
    consistent_iff.2 (inv_of_check (by decide)), by decide, by decide, ?_, _, _, rfl, by decide, by decide⟩
  have hc : Consistent ⟨[⟨1, [[65]], []⟩, ⟨2, [[66]], []⟩, ⟨3, [[65, 48]], []⟩, ⟨4, [[48]], []⟩], []⟩ :=
    consistent_iff.2 (inv_of_check (by decide))
  rintro (hd | ⟨hd, _⟩)
  · rw [forest_eq hc.inv.inv, desc_PF hc.inv.inv (a := ⟨2, [[66]], []⟩) (d := ⟨1, [[65]], []⟩) (by decide) (by decide)] at hd
    exact absurd hd.1 (by decide)
  · cases hd

/-! ### C16 for LT -/

theorem ordered_ne (ho : cfg.ordered = true) : cfg.orderBy ≠ [] := by
  intro e; simp [Cfg.ordered, e] at ho

theorem keys_eq (rows : List Row) : (data rows).map Prod.fst = rows.map Row.pk := by
  unfold data; rw [List.map_map]; rfl

theorem forest_keys (h : PI db.rows) {p : Option Nat} {k : Nat} (hk : k ∈ forest db p) : k ∈ (data db.rows).map Prod.fst := by
  rw [forest_eq h, mem_PF h] at hk
  obtain ⟨r, hr, _, rfl⟩ := hk
  rw [keys_eq]
  exact List.mem_map_of_mem hr

theorem fresh_keys {new : Row} (hf : Fresh db new) : new.pk ∉ (data db.rows).map Prod.fst := by
  rw [keys_eq]
  intro hm
  obtain ⟨r, hr, e⟩ := List.mem_map.1 hm
  exact hf r hr e

theorem forest_nodup (h : PI db.rows) (p : Option Nat) : (forest db p).Nodup := by
  rw [forest_eq h]
  obtain ⟨l, e, hs, hm⟩ := (shows_pforest h).lists p
  rw [show PF db.rows p = _ from e, List.nodup_iff_pairwise_ne, List.pairwise_map]
  refine hs.imp_of_mem ?_
  intro a b ha hb hlt e
  rw [h.pk_inj ((hm a).1 ha).1 ((hm b).1 hb).1 e] at hlt
  exact plt_irrefl _ hlt

/-- the list of the rows below `pre` -/
theorem lists_PF (h : PI db.rows) {pre : Path} {S : List Row} (hS : Lists db.rows pre S) (hpar : IsPar db.rows pre) :
    S.map Row.pk = forest db (at? db.rows pre) := by
  rw [forest_eq h]
  obtain ⟨l, e, s, m⟩ := (shows_pforest h).lists (at? db.rows pre)
  refine Eq.trans ?_ e.symm
  congr 1
  refine sorted_unique (T := fun _ => True) (lt := fun a b : Row => a.path < b.path) (fun _ _ _ _ hab => plt_asymm hab)
    (fun _ _ => trivial) hS.sorted s ?_
  intro r
  rw [hS.mem, m]
  exact and_congr_right (fun hr => (par_iff h hpar hr).symm)

/-- every group of siblings sorted, no nulls -/
abbrev SortedTree (cfg : Cfg) (db : DB) : Prop := SortedData cfg.orderBy (forest db) (data db.rows)

/-- the new node stands at its sorted place below `p`, after the equal ones, nothing else changed, and the tree is sorted -/
structure AddedSorted (cfg : Cfg) (db db' : DB) (obj new : Row) (p : Option Nat) : Prop where
  added : ∃ s, AddedAt db db' obj new p s
  sorted : SortedTree cfg db'
  place : (forest db').SortedAt cfg.orderBy (valsIn (data db'.rows)) p new.pk

/-- some child of `p` is greater than `v` -/
def HasGreater (cfg : Cfg) (db : DB) (p : Option Nat) (v : Vals) : Prop :=
  ∃ r ∈ db.rows, r.pk ∈ forest db p ∧ keyLt cfg.orderBy v r.vals

/-- When the sorted place is reached: before a greater sibling if labels are tidy; without greater siblings if the label found comes after
the labels of all siblings. -/
def Lucky (cfg : Cfg) (db : DB) (p : Option Nat) (x obj : Row) : Prop :=
  (HasGreater cfg db p x.vals ∧ TidyLabels db p) ∨
  (¬ HasGreater cfg db p x.vals ∧ ∀ r ∈ db.rows, r.pk ∈ forest db p → r.path < obj.path)

/-- What a sorted addition gives, always: a row below `p`, the others unchanged (`near`), and if lucky the sorted place. -/
def SortedOutcome (cfg : Cfg) (db : DB) (new : Row) (p : Option Nat) (out : Except Err (DB × Row)) : Prop :=
  (∃ db' obj s, out = .ok (db', obj) ∧ AddedNear db db' obj new p s ∧ (Lucky cfg db p new obj → AddedSorted cfg db db' obj new p)) ∨
  (out = .error .valueError ∧ ¬ HasGreater cfg db p new.vals ∧ Full db p)

theorem firstGreater_iff (ho : cfg.ordered = true) (h : PI db.rows) {pre : Path} {S : List Row} (hS : Lists db.rows pre S)
    (hpar : IsPar db.rows pre) {x : Row} (hn : NonNull cfg.orderBy x.vals) :
    HasGreater cfg db (at? db.rows pre) x.vals ↔ ∃ b, firstGreater cfg S x = some b := by
  obtain ⟨P, hP, e⟩ := sortedPos_eq_filter (ordered_ne ho) (vals := Row.vals) S hn
  unfold firstGreater
  rw [e]
  constructor
  · rintro ⟨r, hr, hm, hlt⟩
    cases hh : (S.filter P).head? with
    | some b => exact ⟨b, rfl⟩
    | none =>
      rw [List.head?_eq_none_iff, List.filter_eq_nil_iff] at hh
      exact absurd ((hP r).2 hlt) (hh r ((hS.mem r).2 ⟨hr, (par_iff h hpar hr).1 ((mem_forest h hr).1 hm)⟩))
  · rintro ⟨b, hb⟩
    have hm := List.mem_filter.1 (List.mem_of_head? hb)
    have hb' := (hS.mem b).1 hm.1
    exact ⟨b, hb'.1, (mem_forest h hb'.1).2 ((par_iff h hpar hb'.1).2 hb'.2), (hP b).1 hm.2⟩

theorem sortedOutcome_of (ho : cfg.ordered = true) (h : Consistent db) (hs : SortedTree cfg db) {new : Row} (hf : Fresh db new)
    (hn : NonNull cfg.orderBy new.vals) {pre : Path} {S : List Row} (hS : Lists db.rows pre S) (hpar : IsPar db.rows pre)
    {out : Except Err (DB × Row)} (ha : SortedAddition cfg db S pre new (at? db.rows pre) out) :
    SortedOutcome cfg db new (at? db.rows pre) out := by
  have hi := h.inv
  have key : ∀ {db' : DB} {obj : Row} {s : Slot}, AddedAt db db' obj new (at? db.rows pre) s →
      HeadSlot cfg.orderBy Row.vals Row.pk S new.vals s → AddedSorted cfg db db' obj new (at? db.rows pre) := by
    intro db' obj s had hh
    obtain ⟨h1, h2⟩ := SortedData.add (ordered_ne ho) hs (by rw [keys_eq]; exact h.pks) (fun q a hm => forest_keys hi.inv hm)
      (fresh_keys hf) hn (lists_PF hi.inv hS hpar) (forest_nodup hi.inv _)
      (fun r hr => List.mem_map.2 ⟨r, ((hS.mem r).1 hr).1, rfl⟩) hh
    refine ⟨⟨s, had⟩, ?_, ?_⟩
    · show SortedData _ _ _
      rw [had.forest, had.data]; exact h1
    · rw [had.forest, had.data]; exact h2
  have hg := firstGreater_iff ho hi.inv hS hpar hn
  rcases ha with ⟨b, hb, db', obj, e, ha⟩ | ⟨hb, ⟨db', l, s, e, ha, hl⟩ | ⟨e, hu⟩⟩
  · refine Or.inl ⟨db', obj, _, e, .of hi ha, ?_⟩
    rintro (⟨_, ht⟩ | ⟨hng, _⟩)
    · exact key (.of hi ha (keepsOrder_of hi.inv hpar ht)) (Or.inl ⟨b, hb, rfl⟩)
    · exact absurd (hg.2 ⟨b, hb⟩) hng
  · refine Or.inl ⟨db', _, s, e, .of hi ha, ?_⟩
    rintro (⟨hgr, _⟩ | ⟨_, hlt⟩)
    · obtain ⟨b, hb'⟩ := hg.1 hgr
      rw [hb] at hb'; cases hb'
    · refine key (.of hi ha trivial) (Or.inr ⟨hb, hl ?_⟩)
      intro r hr hd
      have h1 := hlt r hr ((mem_forest hi.inv hr).2 ((par_iff hi.inv hpar hr).2 hd))
      rw [path_split hi.inv hr] at h1
      exact (label_lt hd).1 h1
  · refine Or.inr ⟨e, ?_, full_of hi.inv hpar hu⟩
    intro hgr
    obtain ⟨b, hb'⟩ := hg.1 hgr
    rw [hb] at hb'; cases hb'

/-- **C16 for LT, additions** (partial: only if `Lucky`; see `C16_lt_fails`). -/
theorem C16_lt_add_root_partial (ho : cfg.ordered = true) (h : Consistent db) (hs : SortedTree cfg db) {new : Row} (hf : Fresh db new)
    (hn : NonNull cfg.orderBy new.vals) : SortedOutcome cfg db new none (addRoot cfg db new) := by
  have := sortedOutcome_of ho h hs hf hn (lists_roots h.inv.inv) (Or.inl rfl) (out := addRoot cfg db new)
    (by rw [at_nil h.inv.inv]; exact addRoot_sorted ho h.inv hf)
  rwa [at_nil h.inv.inv] at this

theorem C16_lt_add_child_partial (ho : cfg.ordered = true) (h : Consistent db) (hs : SortedTree cfg db) {t : Row} (ht : t ∈ db.rows)
    {new : Row} (hf : Fresh db new) (hn : NonNull cfg.orderBy new.vals) :
    SortedOutcome cfg db new (some t.pk) (addChild cfg db t new) := by
  have := sortedOutcome_of ho h hs hf hn (lists_children h.inv.inv t) (Or.inr ⟨t, ht, rfl⟩) (out := addChild cfg db t new)
    (by rw [at_of h.inv.inv ht]; exact addChild_sorted ho h.inv ht hf)
  rwa [at_of h.inv.inv ht] at this

theorem C16_lt_add_sibling_partial (ho : cfg.ordered = true) (h : Consistent db) (hs : SortedTree cfg db) {t : Row} (ht : t ∈ db.rows)
    {posArg : Option Pos} (hpos : posArg = none ∨ posArg = some .sortedSibling) {new : Row} (hf : Fresh db new)
    (hn : NonNull cfg.orderBy new.vals) :
    ∃ p, t.pk ∈ forest db p ∧ SortedOutcome cfg db new p (addSibling cfg db t posArg new) := by
  have hpar := IsPar.drop h.inv.inv ht
  have hpt := (par_iff h.inv.inv hpar ht).2 rfl
  refine ⟨_, (mem_forest h.inv.inv ht).2 rfl, ?_⟩
  rw [hpt]
  refine sortedOutcome_of ho h hs hf hn (lists_siblings h.inv.inv ht) hpar ?_
  rw [← hpt]
  exact addSiblingIn_sorted ho h.inv ht (by rcases hpos with rfl | rfl <;> decide) hf

/-- what a sorted move gives, always, and if lucky the sorted place -/
def SortedMoveOutcome (cfg : Cfg) (db : DB) (x : Row) (p : Option Nat) (out : Except Err (DB × Row)) : Prop :=
  (∃ db' obj s, out = .ok (db', obj) ∧ MovedNear db db' obj x ((forest db).move x.pk p s) p ∧
    (Lucky cfg db p x obj → MovedTo db db' obj x ((forest db).move x.pk p s) ∧ SortedTree cfg db' ∧
      (forest db').SortedAt cfg.orderBy (valsIn (data db'.rows)) p x.pk)) ∨
  (out = .error .valueError ∧ ¬ HasGreater cfg db p x.vals ∧ Full db p)

theorem sortedMove_of (ho : cfg.ordered = true) (h : Consistent db) {x : Row} (hx : x ∈ db.rows)
    (hnn : ∀ e ∈ data db.rows, NonNull cfg.orderBy e.2) (hs : ((forest db).remove x.pk).SortedBy cfg.orderBy (valsIn (data db.rows)))
    {pre : Path} {S : List Row} (hS : Lists db.rows pre S) (hpar : IsPar db.rows pre)
    {out : Except Err (DB × Row)} (ha : SortedMove cfg db S pre x (at? db.rows pre) out) :
    SortedMoveOutcome cfg db x (at? db.rows pre) out := by
  have hi := h.inv
  have hn : NonNull cfg.orderBy x.vals := hnn _ (List.mem_map.2 ⟨x, hx, rfl⟩)
  have key : ∀ {db' : DB} {obj : Row} {s : Slot}, MovedTo db db' obj x ((forest db).move x.pk (at? db.rows pre) s) →
      (∀ z, firstGreater cfg S x = some z → z.pk ≠ x.pk → s = .before z.pk) → (firstGreater cfg S x = none → s = .last) →
      SortedTree cfg db' ∧ (forest db').SortedAt cfg.orderBy (valsIn (data db'.rows)) (at? db.rows pre) x.pk := by
    intro db' obj s had h3 h4
    obtain ⟨h1, h2⟩ := SortedData.move (ordered_ne ho) (x := x.pk) (vx := x.vals) (pk := Row.pk) (vals := Row.vals) (s := s) hnn hs
      (by rw [keys_eq]; exact h.pks) (List.mem_map.2 ⟨x, hx, rfl⟩) (lists_PF hi.inv hS hpar) (forest_nodup hi.inv _)
      (fun r hr => List.mem_map.2 ⟨r, ((hS.mem r).1 hr).1, rfl⟩) h3 h4
    refine ⟨?_, ?_⟩
    · show SortedData _ _ _
      rw [had.forest, had.data]; exact h1
    · rw [had.forest, had.data]; exact h2
  have hg := firstGreater_iff ho hi.inv hS hpar hn
  rcases ha with ⟨b, hb, s, db', obj, e, ha, hsb, _⟩ | ⟨hb, ⟨db', l, s, e, ha, hl⟩ | ⟨e, hu⟩⟩
  · rw [← forest_eq hi.inv] at ha
    refine Or.inl ⟨db', obj, s, e, .of ha, ?_⟩
    rintro (⟨_, ht⟩ | ⟨hng, _⟩)
    · have hm := MovedTo.of ha (keepsOrder_of hi.inv hpar ht)
      refine ⟨hm, key hm ?_ (fun hb' => by rw [hb] at hb'; cases hb')⟩
      intro z hz hne
      rw [hb] at hz
      cases hz
      exact hsb (fun e => hne (by rw [e]))
    · exact absurd (hg.2 ⟨b, hb⟩) hng
  · rw [← forest_eq hi.inv] at ha
    refine Or.inl ⟨db', _, s, e, .of ha, ?_⟩
    rintro (⟨hgr, _⟩ | ⟨_, hlt⟩)
    · obtain ⟨b, hb'⟩ := hg.1 hgr
      rw [hb] at hb'; cases hb'
    · have hm := MovedTo.of ha trivial
      refine ⟨hm, key hm (fun z hz => by rw [hb] at hz; cases hz) (fun _ => hl ?_)⟩
      intro r hr hd
      have h1 := hlt r hr ((mem_forest hi.inv hr).2 ((par_iff hi.inv hpar hr).2 hd))
      rw [path_split hi.inv hr] at h1
      exact (label_lt hd).1 h1
  · refine Or.inr ⟨e, ?_, full_of hi.inv hpar hu⟩
    intro hgr
    obtain ⟨b, hb'⟩ := hg.1 hgr
    rw [hb] at hb'; cases hb'

/-- **C16 for LT, `move`** (partial: only if `Lucky`). -/
theorem C16_lt_move_partial (ho : cfg.ordered = true) (h : Consistent db) {x t : Row} (hx : x ∈ db.rows) (ht : t ∈ db.rows)
    (hnn : ∀ e ∈ data db.rows, NonNull cfg.orderBy e.2) (hs : ((forest db).remove x.pk).SortedBy cfg.orderBy (valsIn (data db.rows)))
    {posArg : Option Pos} {pos : Pos} (hpos : preparePosForMove true posArg = .ok pos)
    (hr : ¬ (forest db).MoveRefused x.pk t.pk pos) :
    ∃ p, t.pk ∈ forest db p ∧ SortedMoveOutcome cfg db x (pos.dest p t.pk) (move cfg db x t posArg) := by
  have hi := h.inv
  refine ⟨_, (mem_forest hi.inv ht).2 rfl, ?_⟩
  rw [forest_eq hi.inv] at hr
  have hm := move_sorted ho hi hx ht hpos hr
  rw [← dest_eq hi.inv ht pos] at hm ⊢
  refine sortedMove_of ho h hx hnn hs ?_ ?_ hm
  · split
    · exact lists_children hi.inv t
    · exact lists_siblings hi.inv ht
  · split
    · exact Or.inr ⟨t, ht, rfl⟩
    · exact IsPar.drop hi.inv ht

/-- a lucky addition between greater and smaller siblings -/
example : Consistent exSDB ∧ SortedTree exSorted exSDB ∧
    ((addChild exSorted exSDB ⟨1, [[65]], []⟩ ⟨9, [], [some 2]⟩).toOption.map (fun x => forest x.1 (some 1))) = some [2, 9, 3, 4] ∧
    ((addChild exSorted exSDB ⟨1, [[65]], []⟩ ⟨9, [], [some 3]⟩).toOption.map (fun x => forest x.1 (some 1))) = some [2, 3, 4, 9] ∧
    ((move exSorted exSDB ⟨2, [[65], [65]], [some 1]⟩ ⟨1, [[65]], []⟩ (some .sortedSibling)).toOption.map (fun x => (forest x.1 none, forest x.1 (some 1)))) = some ([2, 1], [3, 4]) :=
  ⟨consistent_iff.2 exSDB_inv, exSDB_sorted, by decide, by decide, by decide⟩

/-- **C16 fails for LT**: values 5 (label A) and 7 (label B) were added, 5 was deleted, and 10 is added: it is not smaller than any sibling,
so no bound is passed on, the free label A is taken, and 10 comes before 7. -/
theorem C16_lt_fails : ∃ db new, Consistent db ∧ SortedTree exSorted db ∧ Fresh db new ∧ NonNull exSorted.orderBy new.vals ∧
    ∃ db' obj, addRoot exSorted db new = .ok (db', obj) ∧ ¬ SortedTree exSorted db' := by
  refine ⟨⟨[⟨2, [[66]], [some 7]⟩], []⟩, ⟨3, [], [some 10]⟩, consistent_iff.2 (inv_of_check (by decide)), ?_, by unfold Fresh; decide, ?_, _, _, rfl, ?_⟩
  · refine ⟨?_, sortedBy_of_keys [2] (fun k hk => forest_nil hk) (by decide)⟩
    intro e he f hf
    simp only [exSorted, List.mem_cons, List.not_mem_nil, or_false] at hf
    simp only [data, List.map_cons, List.map_nil, List.mem_cons, List.not_mem_nil, or_false] at he
    subst he; subst hf; exact ⟨_, rfl⟩
  · intro f hf
    simp only [exSorted, List.mem_cons, List.not_mem_nil, or_false] at hf
    subst hf; exact ⟨_, rfl⟩
  · intro hs
    exact absurd (hs.sorted none) (by decide)

/-- the table of the witness is what the API produces -/
example : ((addRoot exSorted ⟨[], []⟩ ⟨1, [], [some 5]⟩).toOption.bind (fun a => (addRoot exSorted a.1 ⟨2, [], [some 7]⟩).toOption.map (fun b =>
    (delete b.1 (fun r => r.pk == 1)).rows))) = some [⟨2, [[66]], [some 7]⟩] := by decide

/-! ### C37: deletion -/

theorem doomed_spec (h : PI db.rows) (S : Nat → Bool) (k : Nat) :
    doomedPk db.rows (fun r => S r.pk) k = true ↔ k ∈ db.rows.map Row.pk ∧ Tree.Doomed (forest db) S k := by
  rw [forest_eq h, doomedPk_iff]
  unfold Tree.Doomed
  constructor
  · rintro ⟨r, hr, rfl, hd⟩
    refine ⟨List.mem_map_of_mem hr, ?_⟩
    obtain ⟨q, hq, hs, hp⟩ := doomed_iff.1 hd
    by_cases e : q = r
    · exact Or.inl (e ▸ hs)
    · exact Or.inr ⟨q.pk, hs, (desc_PF h hq hr).2 ⟨hp, e⟩⟩
  · rintro ⟨hk, hd⟩
    obtain ⟨r, hr, rfl⟩ := List.mem_map.1 hk
    refine ⟨r, hr, rfl, doomed_iff.2 ?_⟩
    rcases hd with hd | ⟨q, hs, hd⟩
    · exact ⟨r, hr, hd, List.prefix_refl _⟩
    · obtain ⟨q', hq', rfl⟩ := desc_left_mem h hd
      exact ⟨q', hq', hs, ((desc_PF h hq' hr).1 hd).1⟩

/-- **C37 for deletion**: what goes is what was chosen and everything below it; the rest stays as it was.  This does not depend on
`node_order_by`. -/
theorem C37_delete (h : Consistent db) (S : Nat → Bool) :
    ∃ D : Nat → Bool, (∀ k, D k = true ↔ k ∈ db.rows.map Row.pk ∧ Tree.Doomed (forest db) S k) ∧
      Consistent (delete db (fun r => S r.pk)) ∧ forest (delete db (fun r => S r.pk)) = (forest db).prune D ∧
      (delete db (fun r => S r.pk)).rows = db.rows.filter (fun r => !D r.pk) := by
  have hd := delete_spec h.inv (fun r => S r.pk)
  refine ⟨doomedPk db.rows (fun r => S r.pk), doomed_spec h.inv.inv S, consistent_iff.2 hd.inv, ?_, ?_⟩
  · rw [forest_eq hd.inv.inv, forest_eq h.inv.inv]; exact hd.forest
  · rw [hd.rows]
    refine List.filter_congr (fun r hr => ?_)
    rw [doomedPk_pk h.inv.inv _ hr]

example : Consistent exDB ∧ (delete exDB (fun r => [3].contains r.pk)).rows.map Row.pk = [5, 1, 2] ∧
    (delete exDB (fun r => [4, 1].contains r.pk)).rows.map Row.pk = [5] := ⟨consistent_iff.2 exDB_inv, by decide, by decide⟩

/-! ### C46 for LT -/

/-- **C46 for LT, the moved node** (partial, see `C46_lt_stale_target`): the object is the stored row. -/
theorem C46_lt_node_partial (ho : cfg.ordered = false) (h : Consistent db) {x t : Row} (hx : x ∈ db.rows) (ht : t ∈ db.rows)
    {posArg : Option Pos} {pos : Pos} (hpos : preparePosForMove false posArg = .ok pos)
    (hr : ¬ (forest db).MoveRefused x.pk t.pk pos) :
    ∃ db' obj, move cfg db x t posArg = .ok (db', obj) ∧ obj ∈ db'.rows ∧ obj.pk = x.pk := by
  obtain ⟨p, _, db', obj, e, hm, _⟩ := C36_move_partial ho h hx ht hpos hr
  exact ⟨db', obj, e, hm.obj⟩

/-- **C46 for LT, the target** (partial, see `C46_lt_stale_target`): the object is the stored row, unless the node goes to the first place among
the target's siblings.  With `left` the labels can be shifted, and the target is refreshed then. -/
theorem C46_lt_target_partial (ho : cfg.ordered = false) (h : Consistent db) {x t : Row} (hx : x ∈ db.rows) (ht : t ∈ db.rows) (hne : x.pk ≠ t.pk)
    {posArg : Option Pos} {pos : Pos} (hpos : preparePosForMove false posArg = .ok pos) (hf : pos ≠ .firstSibling)
    (hr : ¬ (forest db).MoveRefused x.pk t.pk pos) :
    ∃ db' obj t', moveObj cfg db x t posArg = .ok (db', obj, t') ∧ move cfg db x t posArg = .ok (db', obj) ∧ t' ∈ db'.rows ∧ t'.pk = t.pk := by
  rw [forest_eq h.inv.inv] at hr
  obtain ⟨db', obj, t', e, h1⟩ := moveObj_target ho h.inv hx ht (fun e => hne (by rw [e])) hpos hf hr
  exact ⟨db', obj, t', e, by rw [← moveObj_move, e]; rfl, h1⟩

/-- the root 3 goes to the left of the root 2, whose label A0 becomes A0A since its left neighbour is A -/
example : ∃ db x t, Consistent db ∧ x ∈ db.rows ∧ t ∈ db.rows ∧ ∃ db', t ∉ db'.rows ∧
    moveObj ⟨[]⟩ db x t (some .left) = .ok (db', ⟨3, [[65, 48]], []⟩, ⟨2, [[65, 48, 65]], []⟩) :=
  ⟨⟨[⟨1, [[65]], []⟩, ⟨2, [[65, 48]], []⟩, ⟨3, [[66]], []⟩], []⟩, ⟨3, [[66]], []⟩, ⟨2, [[65, 48]], []⟩,
    consistent_iff.2 (inv_of_check (by decide)), by decide, by decide, _, by decide, rfl⟩

/-- **C46 fails for LT: the target can be stale.**  The root 3 goes to the first place among the siblings of 2, which has the label 0.  There is
no label before 0, so 2 gets the label 0A; the object refreshed is not the target but another one, fetched by `get_siblings`. -/
theorem C46_lt_stale_target : ∃ db x t, Consistent db ∧ x ∈ db.rows ∧ t ∈ db.rows ∧ x.pk ≠ t.pk ∧
    ∃ db' obj t', moveObj ⟨[]⟩ db x t (some .firstSibling) = .ok (db', obj, t') ∧ t' ∉ db'.rows :=
  ⟨⟨[⟨1, [[65]], []⟩, ⟨2, [[48]], []⟩, ⟨3, [[66]], []⟩], []⟩, ⟨3, [[66]], []⟩, ⟨2, [[48]], []⟩,
    consistent_iff.2 (inv_of_check (by decide)), by decide, by decide, by decide, _, _, _, rfl, by decide⟩

end Verif.LT
