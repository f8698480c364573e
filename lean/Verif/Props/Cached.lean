/-
C65: objects that have cached the nodes above them.
-/
import Verif.AL.Objects
import Verif.AL.Example
import Verif.Props.ALQuery
import Verif.Props.MPQuery
import Verif.Props.MPMove
import Verif.Props.NSQuery
import Verif.NS.Objects

namespace Verif

/-- a cached parent with the key `c` is still the parent of the node `x` -/
def LiveParent (F : Forest) (x : Nat) (c : Option Nat) : Prop := ∀ k ∈ c, x ∈ F (some k)

namespace MP

variable {cfg : Cfg} {db : DB}

/-- mp_tree.py:918-935 `get_parent`, with the `_cached_parent_obj` before and after.  The cached object is dropped before the query, so it is lost if that
raises. -/
def getParentObj (cfg : Cfg) (db : DB) (node : Row) (cached : Option Row) (update : Bool) : Except Err (Option Row) × Option Row :=
  if node.path.length / cfg.steplen ≤ 1 then (.ok none, cached)
  else
    match if update then none else cached with
    | some p => (.ok (some p), cached)
    | none =>
      match getParent cfg db node with
      | .error e => (.error e, none)
      | .ok r => (.ok r, r)

/-- **C65 for MP (partial: the cached parent must still be the parent, unless `update` is set)**: `get_parent` gives the node's parent, and what it caches is the
parent.  With `update`, or without a cached parent, the object is the stored row. -/
theorem C65_mp_partial (hok : cfg.Ok) (h : Consistent cfg db) {x : Row} (hx : x ∈ db.rows) {cached : Option Row} {update : Bool}
    (hc : update = true ∨ LiveParent (forest cfg db) x.pk (cached.map Row.pk)) :
    ∃ r, (getParentObj cfg db x cached update).1 = .ok r ∧ x.pk ∈ forest cfg db (r.map Row.pk) ∧
      (r ≠ none → (getParentObj cfg db x cached update).2 = r) ∧ (update = true ∨ cached = none → ∀ p ∈ r, p ∈ db.rows) := by
  obtain ⟨p, e, hp, -⟩ := (C10_nav hok h hx).parent
  change (getParent cfg db x).map _ = _ at e
  cases hg : getParent cfg db x with
  | error err => rw [hg] at e; cases e
  | ok o =>
    rw [hg] at e
    have ho : o.map Row.pk = p := by simpa [Except.map] using e
    have hst : ∀ q ∈ o, q ∈ db.rows := by
      intro q hq
      unfold getParent at hg
      simp only at hg
      split at hg
      · cases hg; cases hq
      · split at hg
        · cases hg
        · rename_i r hr
          cases hg
          cases hq
          unfold getByPath at hr
          split at hr
          · cases hr
          · rename_i r' hf; cases hr; exact List.mem_of_find?_eq_some hf
    unfold getParentObj
    split
    · rename_i hd
      have : o = none := by
        unfold getParent at hg
        simp only [hd, if_true] at hg
        exact (Except.ok.inj hg).symm
      subst this
      exact ⟨none, rfl, by rw [ho]; exact hp, fun h => absurd rfl h, fun _ _ h => by cases h⟩
    · split
      · rename_i q hq
        cases update with
        | true => simp at hq
        | false =>
          simp only [Bool.false_eq_true, if_false] at hq
          subst hq
          exact ⟨some q, rfl, (hc.resolve_left (by simp)) q.pk (by simp), fun _ => rfl, fun h => by rcases h with h | h <;> cases h⟩
      · rw [hg]
        exact ⟨o, rfl, ho ▸ hp, fun _ => rfl, fun _ => hst⟩

/-- **Without `update` it fails**: after two moves through other objects all fields of the object of node 2 are those of its row, and yet `get_parent` gives the old
parent. -/
theorem C65_mp_stale : ∃ (x p y z : Row) (r₁ r₂ : MoveResult), Consistent exCfg exDB ∧ x ∈ exDB.rows ∧
    getParentObj exCfg exDB x none false = (.ok (some p), some p) ∧
    move exCfg exDB x y (some .lastChild) = .ok r₁ ∧ z ∈ r₁.db.rows ∧ move exCfg r₁.db z p (some .firstSibling) = .ok r₂ ∧
    Consistent exCfg r₂.db ∧ x ∈ r₂.db.rows ∧ (getParentObj exCfg r₂.db x (some p) false).1 = .ok (some p) ∧ x.pk ∉ forest exCfg r₂.db (some p.pk) :=
  ⟨⟨2, [49, 49], 2, 0, []⟩, ⟨1, [49], 1, 2, []⟩, ⟨5, [51], 1, 0, []⟩, ⟨5, [51], 1, 1, []⟩, _, _, exDB_consistent, by decide, rfl, rfl, by decide, rfl,
    ⟨by decide, by decide, by intro p; cases p <;> decide, by decide, by decide⟩, by decide, rfl, by decide⟩

end MP

namespace NS

variable {cfg : Cfg} {db : DB}

/-- ns_tree.py:524-540 `get_parent`, with the `_cached_parent_obj` before and after -/
def getParentObj (db : DB) (node : Row) (cached : Option Row) (update : Bool) : Except Err (Option Row) × Option Row :=
  if node.isRoot then (.ok none, cached)
  else
    match getParent db node (if update then none else cached) with
    | .error e => (.error e, none)
    | .ok r => (.ok r, r)

/-- **C65 for NS, `get_parent` (partial: the cached parent must still be the parent, unless `update` is set)** -/
theorem C65_ns_partial (h : Consistent db) {x : Row} (hx : x ∈ db.rows) {cached : Option Row} {update : Bool}
    (hc : update = true ∨ LiveParent (forest db) x.pk (cached.map Row.pk)) :
    ∃ r, (getParentObj db x cached update).1 = .ok r ∧ x.pk ∈ forest db (r.map Row.pk) ∧
      (r ≠ none → (getParentObj db x cached update).2 = r) ∧ (update = true ∨ cached = none → ∀ p ∈ r, p ∈ db.rows) := by
  obtain ⟨p, e, hp, -⟩ := (C25_nav h hx).parent
  change (getParent db x none).map _ = _ at e
  cases hg : getParent db x none with
  | error err => rw [hg] at e; cases e
  | ok o =>
    rw [hg] at e
    have ho : o.map Row.pk = p := by simpa [Except.map] using e
    have hst : ∀ q ∈ o, q ∈ db.rows := by
      intro q hq
      unfold getParent at hg
      split at hg
      · cases hg; cases hq
      · simp only at hg
        split at hg
        · cases hg
        · rename_i r hr
          cases hg
          cases hq
          exact ((mem_ancestors h.toNI).1 (List.mem_of_getLast? hr)).1
    unfold getParentObj
    split
    · rename_i hd
      have : o = none := by
        unfold getParent at hg
        simp only [hd, if_true] at hg
        exact (Except.ok.inj hg).symm
      subst this
      exact ⟨none, rfl, by rw [ho]; exact hp, fun h => absurd rfl h, fun _ _ h => by cases h⟩
    · rename_i hd
      cases hu : (if update then none else cached) with
      | none =>
        rw [hg]
        exact ⟨o, rfl, ho ▸ hp, fun _ => rfl, fun _ => hst⟩
      | some q =>
        cases update with
        | true => simp at hu
        | false =>
          simp only [Bool.false_eq_true, if_false] at hu
          subst hu
          have : getParent db x (some q) = .ok (some q) := by unfold getParent; rw [if_neg hd]
          rw [this]
          exact ⟨some q, rfl, (hc.resolve_left (by simp)) q.pk (by simp), fun _ => rfl, fun h => by rcases h with h | h <;> cases h⟩

/-- of a cached parent only `rgt` is read -/
theorem addSibling_rgt {t p q new : Row} {pos : Option Pos} (he : p.rgt = q.rgt) :
    addSibling cfg db t (some p) pos new = addSibling cfg db t (some q) pos new := by
  unfold addSibling
  split
  · rfl
  · split
    · rfl
    · split
      · rfl
      · split
        · rfl
        · unfold addInnerSibling
          split
          · rfl
          · simp only
            split
            · rename_i pos₁ _ _ _ _ _ _ _ _ _
              by_cases hl : pos₁ = .lastSibling
              · rw [if_pos hl, if_pos hl]
                unfold getParent
                by_cases hr : Row.isRoot ‹Row› = true
                · simp only [hr, if_true]
                · simp only [hr, Bool.false_eq_true, if_false, he]
              · rw [if_neg hl, if_neg hl]
            · rfl

theorem makeHole_rgt {node target p q : Row} {parent : Option Row} {pos : Pos} (he : p.rgt = q.rgt) :
    makeHole db node target parent (some p) pos = makeHole db node target parent (some q) pos := by
  unfold makeHole
  cases parent with
  | some _ => rfl
  | none =>
    simp only
    by_cases hr : target.isRoot = true
    · rw [if_pos hr, if_pos hr]
    · rw [if_neg hr, if_neg hr]
      unfold getParent
      simp only [hr, Bool.false_eq_true, if_false, he]

theorem move_rgt {x t p q : Row} {pos : Option Pos} (he : p.rgt = q.rgt) : move cfg db x t (some p) pos = move cfg db x t (some q) pos := by
  unfold move
  split
  · rfl
  · split
    · rfl
    · split
      · unfold moveFrom moveTo
        simp only [makeHole_rgt he]
      · rfl

/-- the object's cached parent, if any, ends where the stored parent ends -/
def CacheRgt (db : DB) (t : Row) (cached : Option Row) : Prop := ∀ c, cached = some c → ∃ p ∈ db.rows, t.pk ∈ forest db (some p.pk) ∧ c.rgt = p.rgt

/-- **C65 for NS, `add_sibling` (partial: the cached parent must end where the stored parent ends)** -/
theorem C65_ns_add_partial (h : Consistent db) (ho : cfg.ordered = false) {t : Row} (ht : t ∈ db.rows) {cached : Option Row}
    (hc : CacheRgt db t cached) {posArg : Option Pos} {pos : Pos} (hpos : preparePosForAddSibling false posArg = .ok pos) {new : Row} (hf : Fresh db new) :
    ∃ p, t.pk ∈ forest db p ∧ ∃ db' obj, addSibling cfg db t cached posArg new = .ok (db', obj) ∧ AddedAt db db' obj new p (sibAsked t.pk pos) := by
  cases cached with
  | none => exact C22_add_sibling h ho ht (fun p e => by cases e) hpos hf
  | some c =>
    obtain ⟨p, hp, hm, e⟩ := hc c rfl
    rw [addSibling_rgt e]
    exact C22_add_sibling h ho ht (fun q e => by cases e; exact ⟨hp, hm⟩) hpos hf

/-- **C65 for NS, `move` (partial likewise)** -/
theorem C65_ns_move_partial (h : Consistent db) (ho : cfg.ordered = false) {x t : Row} (hx : x ∈ db.rows) (ht : t ∈ db.rows) {cached : Option Row}
    (hc : CacheRgt db t cached) {posArg : Option Pos} {pos : Pos} (hpos : preparePosForMove false posArg = .ok pos)
    (hr : ¬ (forest db).MoveRefused x.pk t.pk pos) :
    ∃ p, t.pk ∈ forest db p ∧ ∃ res, move cfg db x t cached posArg = .ok res ∧ MovedTo db res x t ((forest db).moveAsked x.pk p t.pk pos) := by
  cases cached with
  | none => exact C23_move h ho hx ht (fun p e => by cases e) hpos hr
  | some c =>
    obtain ⟨p, hp, hm, e⟩ := hc c rfl
    rw [move_rgt e]
    exact C23_move h ho hx ht (fun q e => by cases e; exact ⟨hp, hm⟩) hpos hr

/-- **`add_sibling` and `move` need more**: the cached parent of node 3 is still its parent, but a child has been added below it; the fields of the object of
node 3 are those of its row.  The new node is not put at the end. -/
theorem C65_ns_stale : ∃ (x p o o' : Row) (db₁ db₂ : DB) (t : Row), Consistent exDB ∧ x ∈ exDB.rows ∧
    getParentObj exDB x none false = (.ok (some p), some p) ∧ addChild ⟨[]⟩ exDB p ⟨8, 0, 0, 0, 0, []⟩ = .ok (db₁, o, t) ∧
    Consistent db₁ ∧ x ∈ db₁.rows ∧ LiveParent (forest db₁) x.pk (some p.pk) ∧
    addSibling ⟨[]⟩ db₁ x (some p) (some .lastSibling) ⟨9, 0, 0, 0, 0, []⟩ = .ok (db₂, o') ∧
    forest db₂ (some 1) = [2, 3, 9, 8] ∧ (forest db₁).put (some 1) .last 9 (some 1) = [2, 3, 8, 9] :=
  ⟨⟨3, 1, 4, 7, 2, []⟩, ⟨1, 1, 1, 8, 1, []⟩, _, _, _, _, _, exDB_inv, by decide, rfl, rfl,
    (by decide : NI _) |> fun h => ⟨h, fun r hr => full_of_range 10 (by revert r; decide) (by revert r; decide)⟩, by decide, by unfold LiveParent; decide, rfl, by decide, by decide⟩

end NS

namespace AL

variable {cfg : Cfg} {db : DB}

/-- **C65 for AL (partial: the cached objects must be where they were when cached; the cached depth must be right, unless `update` is set)**: the queries that go through
the cache give what the forest implies, and what they cache is right. -/
theorem C65_al_partial (h : Wf cfg db) {x : Row} (hx : x ∈ db.rows) {up : List Row} (hl : (forest cfg db).LiveUp x.parent (links up)) (proxy : Bool) :
    (∃ r, getParentObj proxy db x up = .ok r ∧ x.pk ∈ forest cfg db (r.map Row.pk)) ∧
    (∃ l up', ancestorsObj proxy db x up = .ok (l, up') ∧ (forest cfg db).Anc x.pk (l.map Row.pk) ∧
      (getRootObj proxy db x up).map Row.pk = .ok ((l.map Row.pk ++ [x.pk]).headD x.pk) ∧ (forest cfg db).LiveUp x.parent (links up')) ∧
    ∃ n : Nat, (forest cfg db).Level x.pk n ∧ ∀ cached update, update = true ∨ cached = none ∨ cached = some (n : Int) →
      getDepthObj db x up cached update = .ok n := by
  have hai := h.ai
  have hxF : x.pk ∈ PF cfg db.rows x.parent := (key_iff hai hx).2 rfl
  have hpar : ∃ r, getParent db x = .ok r ∧ r.map Row.pk = x.parent := by
    rcases getParent_spec hai hx with ⟨e, e'⟩ | ⟨p, _, e, e'⟩
    · exact ⟨none, e', e.symm⟩
    · exact ⟨some p, e', e.symm⟩
  rw [forest_eq hai] at hl ⊢
  obtain ⟨l, ha, hd, hanc, hlev, hlive⟩ := loops_live hai hl hxF
  refine ⟨?_, ?_, l.length + 1, hlev, ?_⟩
  · obtain ⟨r, e, hr⟩ := hpar
    cases proxy with
    | true => exact ⟨r, by simpa [getParentObj] using e, by rw [hr]; exact hxF⟩
    | false =>
      cases up with
      | nil => exact ⟨r, by cases r <;> simp [getParentObj, parentObj, e, Except.map], by rw [hr]; exact hxF⟩
      | cons p up => exact ⟨some p, by simp [getParentObj, parentObj, Except.map], by rw [Option.map_some, ← hl.1]; exact hxF⟩
  · cases proxy with
    | true =>
      obtain ⟨l', hc⟩ := chain_exists hai hx
      refine ⟨l', up, by simp [ancestorsObj, ancestors_spec hai hc, Except.map], hc.anc, ?_, hl⟩
      simp only [getRootObj, ancestorsObj, ancestors_spec hai hc, Except.map, if_true]
      cases l' <;> rfl
    | false =>
      have e : ancestorsObj false db x up = .ok (l, l.reverse) := by
        simp [ancestorsObj, ha _ _ (Nat.lt_succ_self _), Except.map]
      refine ⟨l, l.reverse, e, hanc, ?_, hlive⟩
      rw [getRootObj, e]
      cases l <;> rfl
  · intro cached update hc
    unfold getDepthObj
    cases hp : x.parent with
    | none =>
      have hroot : (PF cfg db.rows).Level x.pk 1 := .root (hp ▸ hxF)
      rw [level_unique hai hlev hroot]; rfl
    | some k =>
      simp only
      rcases hc with rfl | rfl | rfl
      · simp only [if_true]
        rw [hd _ _ (Nat.lt_succ_self _)]; congr 1; push_cast; omega
      · simp only [ite_self]
        rw [hd _ _ (Nat.lt_succ_self _)]; congr 1; push_cast; omega
      · cases update with
        | true =>
          simp only [if_true]
          rw [hd _ _ (Nat.lt_succ_self _)]; congr 1; push_cast; omega
        | false => simp

/-- **C65 for AL, proxy models**: `get_parent`, `get_ancestors` and `get_root` do not use the cache. -/
theorem C65_al_proxy (h : Wf cfg db) {x : Row} (hx : x ∈ db.rows) (up : List Row) :
    (∃ r, getParentObj true db x up = .ok r ∧ x.pk ∈ forest cfg db (r.map Row.pk) ∧ ∀ p ∈ r, p ∈ db.rows) ∧
    ∃ l, ancestorsObj true db x up = .ok (l, up) ∧ (forest cfg db).Anc x.pk (l.map Row.pk) ∧
      (getRootObj true db x up).map Row.pk = .ok ((l.map Row.pk ++ [x.pk]).headD x.pk) := by
  have hai := h.ai
  have hxF : x.pk ∈ PF cfg db.rows x.parent := (key_iff hai hx).2 rfl
  rw [forest_eq hai]
  refine ⟨?_, ?_⟩
  · rcases getParent_spec hai hx with ⟨e, e'⟩ | ⟨p, hp, e, e'⟩
    · exact ⟨none, by simpa [getParentObj] using e', by rw [Option.map_none, ← e]; exact hxF, fun p hp => by cases hp⟩
    · exact ⟨some p, by simpa [getParentObj] using e', by rw [Option.map_some, ← e]; exact hxF, fun q hq => by cases hq; exact hp⟩
  · obtain ⟨l, hc⟩ := chain_exists hai hx
    refine ⟨l, by simp [ancestorsObj, ancestors_spec hai hc, Except.map], hc.anc, ?_⟩
    simp only [getRootObj, ancestorsObj, ancestors_spec hai hc, Except.map, if_true]
    cases l <;> rfl

/-- **With stale cached objects it fails**: the object of node 4 has cached its ancestors, then node 3 above it becomes a root through another object.  All fields of the object
of node 4 are those of its row, and yet its ancestors, its root and, even with `update`, its depth are the old ones. -/
theorem C65_al_stale : ∃ (x y t o : Row) (l up : List Row) (db' : DB), Consistent exPlain exDB ∧ x ∈ exDB.rows ∧
    ancestorsObj false exDB x [] = .ok (l, up) ∧ move exPlain exDB y t none (some .right) = .ok (db', o) ∧ Consistent exPlain db' ∧ x ∈ db'.rows ∧
    (forest exPlain db').Anc x.pk [3] ∧ (ancestorsObj false db' x up).map (fun r => r.1.map Row.pk) = .ok [1, 3] ∧
    (getRootObj false db' x up).map Row.pk = .ok 1 ∧ (forest exPlain db').Level x.pk 2 ∧ getDepthObj db' x up none true = .ok 3 := by
  refine ⟨⟨4, some 3, 1, []⟩, ⟨3, some 1, 4, []⟩, ⟨5, none, 3, []⟩, _, _, _, _, consistent_of_inv rfl exDB_inv, by decide, rfl, rfl, ?_, by decide, ?_, rfl, rfl, ?_, rfl⟩
  · exact ⟨wf_of_ai (cfg := exPlain) (ai_example (fun k => if k = 3 then 0 else k) (by decide) (by decide)), by decide, by decide⟩
  · exact .step (l := []) (.root (by decide)) (by decide)
  · exact .child (p := 3) (.root (by decide)) (by decide)

end AL

/-! Cases that meet the hypotheses -/

/-- node 4 with both ancestors cached; the data of the cached objects may differ from the stored one -/
example : (AL.forest AL.exPlain AL.exDB).LiveUp (some 3) (AL.links [⟨3, some 1, 7, [some 9]⟩, ⟨1, none, 0, []⟩]) ∧
    AL.getDepthObj AL.exDB ⟨4, some 3, 1, []⟩ [⟨3, some 1, 7, [some 9]⟩, ⟨1, none, 0, []⟩] (some 8) true = .ok 3 :=
  ⟨⟨rfl, by decide, rfl, by decide, trivial⟩, by decide⟩

example : LiveParent (MP.forest MP.exCfg MP.exDB) 4 (some 3) ∧ LiveParent (NS.forest NS.exDB) 4 (some 3) := by
  unfold LiveParent; decide

/-- a cached parent with other data -/
example : NS.CacheRgt NS.exDB ⟨3, 1, 4, 7, 2, []⟩ (some ⟨1, 1, 1, 8, 1, [some 4]⟩) :=
  fun c e => ⟨⟨1, 1, 1, 8, 1, []⟩, by decide, by decide, by cases e; rfl⟩

end Verif
