/-
C46: the objects passed to `move`, afterwards.
-/
import Verif.Props.MPMove
import Verif.Props.NSTree
import Verif.Props.ALTree

namespace Verif

namespace MP

variable {cfg : Cfg} {db : DB}

theorem get?_mem {k : Nat} {r : Row} (h : db.get? k = some r) : r ∈ db.rows ∧ r.pk = k := by
  unfold DB.get? at h
  have := List.find?_some h
  exact ⟨List.mem_of_find?_eq_some h, by simpa using this⟩

theorem finishMove_objects {x vt t t' : Row} {o n : List Nat} {res : MoveResult} (h : finishMove cfg db x vt t t' o n = .ok res) :
    (res.node ∈ res.db.rows ∧ res.node.pk = x.pk) ∧ (if vt.pk = t.pk then res.target ∈ res.db.rows ∧ res.target.pk = t.pk else res.target = t') := by
  unfold finishMove at h
  simp only at h
  split at h
  · rename_i e1 e2
    injection h with h
    subst h
    refine ⟨get?_mem e1, ?_⟩
    split
    · rename_i he
      exact ⟨(get?_mem e2).1, (get?_mem e2).2.trans he⟩
    · rfl
  · cases h

theorem moveTo_objects {x t t' : Row} (hx : x ∈ db.rows) {v : MoveVars} {res : MoveResult} (h : moveTo cfg db x t t' v = .ok res) :
    (res.node ∈ res.db.rows ∧ res.node.pk = x.pk) ∧
      ((v.target.pk = t.pk ∧ res.target ∈ res.db.rows ∧ res.target.pk = t.pk) ∨ (res.target = t' ∧ (v.target.pk = t.pk → res.db = db))) := by
  unfold moveTo at h
  split at h
  · injection h with h
    subst h
    exact ⟨⟨hx, rfl⟩, Or.inr ⟨rfl, fun _ => rfl⟩⟩
  · split at h
    · cases h
    · obtain ⟨h1, h2⟩ := finishMove_objects h
      refine ⟨h1, ?_⟩
      by_cases he : v.target.pk = t.pk
      · rw [if_pos he] at h2; exact Or.inl ⟨he, h2⟩
      · rw [if_neg he] at h2; exact Or.inr ⟨h2, fun e => absurd e he⟩

theorem moveSorted_target {x : Row} {v v' : MoveVars} (h : moveSorted cfg db x v = .ok (some v')) : v'.target = v.target := by
  unfold moveSorted at h
  simp only at h
  split at h
  · split at h
    · injection h with h; injection h with h; subst h; rfl
    · split at h
      · cases h
      · split at h
        · split at h
          · cases h
          · split at h
            · cases h
            · injection h with h; injection h with h; subst h; rfl
        · injection h with h; injection h with h; subst h; rfl
  · injection h with h; injection h with h; subst h; rfl

/-- the caller's objects after a successful move, on any table -/
theorem move_objects {x t : Row} (hx : x ∈ db.rows) (ht : t ∈ db.rows) {posArg : Option Pos} {pos : Pos}
    (hprep : preparePosForMove cfg.ordered posArg = .ok pos) {res : MoveResult} (h : move cfg db x t posArg = .ok res) :
    (res.node ∈ res.db.rows ∧ res.node.pk = x.pk) ∧
      ((res.target ∈ res.db.rows ∧ res.target.pk = t.pk) ∨ (pos.isChild = true ∧ res.target = { t with numchild := t.numchild + 1 })) := by
  unfold move at h
  rw [hprep] at h
  simp only at h
  split at h
  · cases h
  · rename_i v ev
    split at h
    · cases h
    · have htgt : pos.isChild = false → v.target = t := by
        intro hc
        unfold moveToChildVars at ev
        rw [isChildPos_eq, hc] at ev
        simp only [Bool.false_eq_true, if_false] at ev
        injection ev with ev
        rw [← ev]
      rw [isChildPos_eq] at h
      split at h
      · cases h
      · injection h with h
        subst h
        refine ⟨⟨hx, rfl⟩, ?_⟩
        cases hc : pos.isChild with
        | true => exact Or.inr ⟨rfl, by simp⟩
        | false => left; simpa using ht
      · rename_i v' es
        have hv := moveSorted_target es
        obtain ⟨h1, h2⟩ := moveTo_objects hx h
        refine ⟨h1, ?_⟩
        rcases h2 with ⟨_, h2⟩ | ⟨h2, h3⟩
        · exact Or.inl h2
        · cases hc : pos.isChild with
          | true => right; rw [hc] at h2; exact ⟨rfl, by simpa using h2⟩
          | false =>
            left
            rw [hc] at h2
            have h2 : res.target = t := by simpa using h2
            have hd := h3 (by rw [hv, htgt hc])
            rw [h2, hd]
            exact ⟨ht, rfl⟩

/-- **C46 for MP, the moved node**: after every successful move, on any table, the object is the stored row. -/
theorem C46_mp_node {x t : Row} (hx : x ∈ db.rows) (ht : t ∈ db.rows) {posArg : Option Pos} {res : MoveResult}
    (h : move cfg db x t posArg = .ok res) : res.node ∈ res.db.rows ∧ res.node.pk = x.pk := by
  cases hp : preparePosForMove cfg.ordered posArg with
  | error e => unfold move at h; rw [hp] at h; cases h
  | ok pos => exact (move_objects hx ht hp h).1

/-- **C46 for MP, the target of a move to a sibling position**: after every successful move, on any table, the object is the stored row. -/
theorem C46_mp_target {x t : Row} (hx : x ∈ db.rows) (ht : t ∈ db.rows) {posArg : Option Pos} {pos : Pos}
    (hprep : preparePosForMove cfg.ordered posArg = .ok pos) (hc : pos.isChild = false) {res : MoveResult}
    (h : move cfg db x t posArg = .ok res) : res.target ∈ res.db.rows ∧ res.target.pk = t.pk := by
  rcases (move_objects hx ht hprep h).2 with h | ⟨h, _⟩
  · exact h
  · rw [hc] at h; cases h

example : ∃ res, move exCfg exDB ⟨4, [49, 51, 49], 3, 0, []⟩ ⟨2, [49, 49], 2, 0, []⟩ (some .left) = .ok res ∧
    res.node = ⟨4, [49, 49], 2, 0, []⟩ ∧ res.target = ⟨2, [49, 50], 2, 0, []⟩ := ⟨_, rfl, by decide, by decide⟩

/-- the new parent is found at its old path, with one child more -/
theorem target_row (hok : cfg.Ok) (h : Inv cfg db.rows) {x t : Row} (ht : t ∈ db.rows) {res : MoveResult} {F : Forest}
    (hg : MoveGood cfg db res x t t.path F) (hl : (F (some t.pk)).length = (PF cfg db.rows (some t.pk)).length + 1) :
    { t with numchild := t.numchild + 1 } ∈ res.db.rows := by
  have : (t.pk, t.vals) ∈ data res.db.rows := by rw [hg.data]; exact List.mem_map.2 ⟨t, ht, rfl⟩
  obtain ⟨r, hr, e⟩ := List.mem_map.1 this
  have e1 : r.pk = t.pk := congrArg Prod.fst e
  have e2 : r.vals = t.vals := congrArg Prod.snd e
  have hat : at? res.db.rows t.path = some r.pk := by rw [hg.dest, at?_row h.toPInv ht, e1]
  have e3 : r.path = t.path := (at?_eq_pk hg.inv.toPInv hr).1 hat
  have e4 : r.depth = t.depth := by
    have h1 := hg.inv.depth r hr
    have h2 := h.depth t ht
    rw [e3, h2] at h1
    exact (Nat.eq_of_mul_eq_mul_right hok.step h1).symm
  have e5 : r.numchild = t.numchild + 1 := by
    rw [hg.inv.num r hr, hg.forest, e1, hl, h.num t ht]; rfl
  have : ({ t with numchild := t.numchild + 1 } : Row) = r := by
    cases r; cases t; simp only at e1 e2 e3 e4 e5; subst e1 e2 e3 e4 e5; rfl
  rw [this]; exact hr

/-- **C46 for MP, the target of a move to a child position** (partial: the moved node was not a child of the target before, see
`C46_mp_stale_count`).  After the move the object is the stored row, with its new number of children. -/
theorem C46_mp_target_child_partial (hok : cfg.Ok) (h : Consistent cfg db) (hs : cfg.ordered = true → SortedTree cfg db)
    {x t : Row} (hx : x ∈ db.rows) (ht : t ∈ db.rows) {posArg : Option Pos} {pos : Pos}
    (hprep : preparePosForMove cfg.ordered posArg = .ok pos) (hc : pos.isChild = true) (hnot : x.pk ∉ forest cfg db (some t.pk)) {res : MoveResult}
    (hm : move cfg db x t posArg = .ok res) : res.target ∈ res.db.rows ∧ res.target.pk = t.pk := by
  have hi := (consistent_iff hok).1 h
  rcases (move_objects hx ht hprep hm).2 with h2 | ⟨_, h2⟩
  · exact h2
  · have hdest : destPath cfg pos t = t.path := by unfold destPath; rw [isChildPos_eq, hc]; rfl
    have hP := destPath_isPar (cfg := cfg) hi ht pos
    rw [forest_eq hi hok] at hnot
    have hroom : MoveRoom cfg db.rows x t pos := by
      intro e
      rw [hdest] at e
      exact absurd ((mem_PF hi.toPInv).2 ⟨x, hx, by rw [← at?_row hi.toPInv ht, ← e]; rfl, rfl⟩) hnot
    have hrem : (PF cfg db.rows (some t.pk)).filter (· ≠ x.pk) = PF cfg db.rows (some t.pk) := by
      refine List.filter_eq_self.2 (fun k hk => ?_)
      simp only [ne_eq, decide_eq_true_eq]
      rintro rfl
      exact hnot hk
    have key : { t with numchild := t.numchild + 1 } ∈ res.db.rows := by
      cases ho : cfg.ordered with
      | false =>
        rw [ho] at hprep
        have hpl := plain_of_prep hprep
        rcases move_unsorted hok hi ho hx ht hprep hroom with ⟨_, e⟩ | ⟨_, ⟨res', e, hg⟩ | ⟨e, _⟩⟩
        · rw [hm] at e; cases e
        · rw [hm] at e
          injection e with e
          subst e
          rw [hdest] at hg
          refine target_row hok hi ht hg ?_
          cases pos <;> simp_all [isPlainPos, Pos.isChild, Forest.moveAsked, Forest.move, Forest.put, Forest.remove, Slot.ins]
        · rw [hm] at e; cases e
      | true =>
        rw [ho] at hprep
        obtain ⟨hn, hsb⟩ := hs ho
        rw [forest_eq hi hok] at hsb
        have hsib := sortedSibs_except (x := x.pk) hi.toPInv hok hn (fun p => (hsb p).filter (· ≠ x.pk)) hP
        rcases move_sorted hok hi ho hx ht hprep (hn x hx) hsib hroom with ⟨_, e⟩ | ⟨_, s, hslot, ⟨res', e, hg⟩ | ⟨e, _⟩⟩
        · rw [hm] at e; cases e
        · rw [hm] at e
          injection e with e
          subst e
          rw [hdest] at hg
          refine target_row hok hi ht hg ?_
          obtain ⟨l₁, l₂, e1, e2, _⟩ := sortedIns_of_slot hi.toPInv hok hP hslot x.pk
          rw [hdest, at?_row hi.toPInv ht, hrem] at e1 e2
          have hd : destPar (par cfg db.rows t) t.pk pos = some t.pk := by unfold destPar; rw [isChildPos_eq, hc]; rfl
          rw [hd]
          simp only [Forest.move, Forest.put, Forest.remove, if_true]
          rw [hrem, e2, e1]
          simp only [List.length_append, List.length_cons]
          omega
        · rw [hm] at e; cases e
    rw [h2]
    exact ⟨key, rfl⟩

example : ∃ res, move exCfg exDB ⟨4, [49, 51, 49], 3, 0, []⟩ ⟨1, [49], 1, 2, []⟩ (some .firstChild) = .ok res ∧
    4 ∉ forest exCfg exDB (some 1) ∧ res.target = ⟨1, [49], 1, 3, []⟩ := ⟨_, rfl, by decide, by decide⟩

/-- **C46 fails for MP**: moving a node among the children of the target counts it again, in the object only. -/
theorem C46_mp_stale_count : ∃ res, Consistent exCfg exDB ∧ (⟨2, [49, 49], 2, 0, []⟩ : Row) ∈ exDB.rows ∧ (⟨1, [49], 1, 2, []⟩ : Row) ∈ exDB.rows ∧
    move exCfg exDB ⟨2, [49, 49], 2, 0, []⟩ ⟨1, [49], 1, 2, []⟩ (some .lastChild) = .ok res ∧
    res.target = ⟨1, [49], 1, 3, []⟩ ∧ (⟨1, [49], 1, 2, []⟩ : Row) ∈ res.db.rows ∧ res.target ∉ res.db.rows :=
  ⟨_, exDB_consistent, by decide, by decide, rfl, by decide, by decide, by decide⟩

end MP

namespace NS

variable {cfg : Cfg} {db : DB}

/-- **C46 for NS, without `node_order_by`**: after the move both objects are the stored rows. -/
theorem C46_ns (h : Consistent db) (ho : cfg.ordered = false) {x t : Row} (hx : x ∈ db.rows) (ht : t ∈ db.rows) {cached : Option Row}
    (hc : CacheOk db t cached) {posArg : Option Pos} {pos : Pos} (hpos : preparePosForMove false posArg = .ok pos)
    (hr : ¬ (forest db).MoveRefused x.pk t.pk pos) :
    ∃ res, move cfg db x t cached posArg = .ok res ∧ (res.node ∈ res.db.rows ∧ res.node.pk = x.pk) ∧ res.target ∈ res.db.rows ∧ res.target.pk = t.pk := by
  obtain ⟨p, _, res, e, hm⟩ := C23_move h ho hx ht hc hpos hr
  exact ⟨res, e, hm.node, hm.target⟩

/-- **C46 for NS, with `node_order_by`.** -/
theorem C46_ns_sorted (h : Consistent db) (ho : cfg.ordered = true) {x t : Row} (hx : x ∈ db.rows) (ht : t ∈ db.rows)
    {cached : Option Row} {posArg : Option Pos} {pos : Pos} (hpos : preparePosForMove true posArg = .ok pos)
    (hr : ¬ (forest db).MoveRefused x.pk t.pk pos) :
    ∃ res, move cfg db x t cached posArg = .ok res ∧ (res.node ∈ res.db.rows ∧ res.node.pk = x.pk) ∧ res.target ∈ res.db.rows ∧ res.target.pk = t.pk := by
  obtain ⟨res, s, l, e, hm, _⟩ := move_sorted h ho hx ht (cached := cached) hpos (fun hr' => hr ((refused_iff h hx ht pos).1 hr'))
  have hm := MovedTo.of hm
  exact ⟨res, e, hm.node, hm.target⟩

example : ∃ res, move ⟨[]⟩ exDB ⟨2, 1, 2, 3, 2, []⟩ ⟨5, 2, 1, 2, 1, []⟩ none (some .lastChild) = .ok res ∧
    res.node = ⟨2, 2, 2, 3, 2, []⟩ ∧ res.target = ⟨5, 2, 1, 4, 1, []⟩ := ⟨_, rfl, by decide, by decide⟩

end NS

namespace AL

variable {cfg : Cfg} {db : DB}

/-- **C46 for AL, the moved node** (partial: its row; the cached depth is stale, see `C46_al_stale_depth`). -/
theorem C46_al_node_partial (ho : cfg.ordered = false) (h : Consistent cfg db) {x t : Row} (hx : x ∈ db.rows) (ht : t ∈ db.rows) {cached : Option Int}
    {posArg : Option Pos} {pos : Pos} (hpos : preparePosForMove false posArg = .ok pos)
    (hr : ¬ (forest cfg db).MoveRefused x.pk t.pk pos) :
    ∃ db' obj, move cfg db x t cached posArg = .ok (db', obj) ∧ obj ∈ db'.rows ∧ obj.pk = x.pk := by
  obtain ⟨p, _, db', obj, e, hm⟩ := C31_move ho h hx ht (cached := cached) hpos hr
  exact ⟨db', obj, e, hm.obj⟩

/-- **C46 fails for AL: the target can be stale.**  `move` leaves the target object as it is; moving to its left gives it a new `sib_order`. -/
theorem C46_al_stale_target : ∃ (x t obj : Row) (db' : DB), Consistent exPlain exDB ∧ x ∈ exDB.rows ∧ t ∈ exDB.rows ∧
    move exPlain exDB x t none (some .left) = .ok (db', obj) ∧ t ∉ db'.rows :=
  ⟨⟨4, some 3, 1, []⟩, ⟨2, some 1, 1, []⟩, _, _, consistent_of_inv rfl exDB_inv, by decide, by decide, rfl, by decide⟩

end AL

end Verif
