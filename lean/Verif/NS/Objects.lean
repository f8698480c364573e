/-
NS: `add_sibling` with the target object as it leaves it.
-/
import Verif.NS.Add

namespace Verif.NS

/-- an object in memory: its fields and its `_cached_parent_obj` -/
abbrev Obj := Row × Option Row

/-- the parent that `get_parent` stores in the object when nothing is cached (ns_tree.py:538-540) -/
def freshParent (db : DB) (node : Row) : Option Row := (getParent db node none).toOption.join

/-- The target's `_cached_parent_obj` after `add_sibling`.  `get_siblings` fetches the parent again (ns_tree.py:214, 222, 505); with "last-sibling" only
`get_parent` is called, which keeps what is cached (ns_tree.py:243, 535); for a root neither stores anything (ns_tree.py:503, 529). -/
def cacheAfter (db : DB) (target : Obj) (pos : Pos) : Option Row :=
  if target.1.isRoot then target.2
  else if pos = .lastSibling then target.2.or (freshParent db target.1)
  else freshParent db target.1

/-- ns_tree.py:181-255 `add_sibling`.  The fields of the target are only read; the new object has no cached parent. -/
def addSiblingObj (cfg : Cfg) (db : DB) (target : Obj) (n : Pos × Row) : Except Err (DB × Obj × Obj) :=
  (addSibling cfg db target.1 target.2 (some n.1) n.2).map (fun r => (r.1, (r.2, none), (target.1, cacheAfter db target n.1)))

variable {cfg : Cfg} {db db' : DB}

theorem addSiblingObj_ok {target target' obj : Obj} {n : Pos × Row} :
    addSiblingObj cfg db target n = .ok (db', obj, target') ↔
      addSibling cfg db target.1 target.2 (some n.1) n.2 = .ok (db', obj.1) ∧ obj.2 = none ∧ target' = (target.1, cacheAfter db target n.1) := by
  unfold addSiblingObj
  cases addSibling cfg db target.1 target.2 (some n.1) n.2 with
  | error e => simp [Except.map]
  | ok r =>
    rcases r with ⟨a, b⟩
    rcases obj with ⟨o, c⟩
    simp only [Except.map, Except.ok.injEq, Prod.mk.injEq]
    constructor
    · rintro ⟨rfl, ⟨rfl, rfl⟩, rfl⟩; simp
    · rintro ⟨⟨rfl, rfl⟩, rfl, rfl⟩; simp

theorem prep_pos {ordered : Bool} {pos pos' : Pos} (hpos : IsSibPos pos) (e : preparePosForAddSibling ordered (some pos) = .ok pos') : pos' = pos := by
  unfold preparePosForAddSibling preparePosVar at e
  revert e
  rcases hpos with rfl | rfl | rfl | rfl <;> cases ordered <;> simp [validPosForAddSibling, validPosForSortedAddSibling] <;> exact fun h => h.symm

/-- For the ends of the group only the key of a root and that it is one matter; for `right` also its tree. -/
theorem addSibling_root_congr {a t : Row} (hk : a.pk = t.pk) (ha : a.lft = 1) (ht : t.lft = 1) (hd : a.depth = t.depth) {pos : Pos}
    (hpos : pos = .firstSibling ∨ pos = .lastSibling ∨ (pos = .right ∧ a.tree = t.tree)) (ca ct : Option Row) (new : Row) :
    addSibling cfg db a ca (some pos) new = addSibling cfg db t ct (some pos) new := by
  have hsib : IsSibPos pos := by rcases hpos with rfl | rfl | ⟨rfl, _⟩ <;> simp [IsSibPos]
  unfold addSibling
  split
  · rfl
  · rename_i pos' e
    have hp := prep_pos hsib e
    subst hp
    have hns : pos' ≠ .sortedSibling := by rcases hsib with rfl | rfl | rfl | rfl <;> decide
    have h1 : a.isRoot = true := by simp [Row.isRoot, ha]
    have h2 : t.isRoot = true := by simp [Row.isRoot, ht]
    simp only [resolveSorted, hns, if_false, h1, h2, if_true, hd]
    unfold addRootSibling
    cases lastRootNode db with
    | none => rfl
    | some z =>
      have hs : sameNode a (some z) = sameNode t (some z) := by unfold sameNode; simp only; rw [hk]
      simp only [hs]
      rcases hpos with rfl | rfl | ⟨rfl, hp⟩
      · rfl
      · rfl
      · simp only [hp]

theorem mem_save {row r : Row} (hr : r ∈ db.rows) (hne : r.pk ≠ row.pk) : r ∈ (save db row).rows := by
  unfold save
  simp only
  split
  · refine List.mem_map.2 ⟨r, hr, ?_⟩
    rw [if_neg (by simpa using hne)]
  · exact List.mem_append_left _ hr

theorem sib_right (h : NI db.rows) {t t' p : Row} (ht : t ∈ db.rows) (ht' : t' ∈ db.rows) (hp : Inner db.rows p t) (hp' : Inner db.rows p t') (hlt : lt t t') :
    t.tree = t'.tree ∧ t.rgt < t'.lft := by
  have htr : t.tree = t'.tree := hp.2.1.1.symm.trans hp'.2.1.1
  have hl : t.lft < t'.lft := by
    rcases lt_iff.1 hlt with h | h
    · omega
    · exact h.2
  refine ⟨htr, ?_⟩
  by_contra hc
  have hne : t' ≠ t := by rintro rfl; omega
  have h1 := h.dist t' ht' t ht hne htr.symm
  have h2 := h.lam t ht t' ht' htr hl (by omega)
  have henc : encl t t' := ⟨htr, hl, h2⟩
  rcases hp'.2.2 t ht henc with e | e
  · rw [e] at hp; have := hp.2.1.2.1; omega
  · have h3 := e.2.1
    have h4 := hp.2.1.2.1
    omega

/-- what `add_sibling` leaves of the target's row: for a root, it stays a root; and right of the target, it stays as it is -/
theorem addSibling_target (h : NI db.rows) {t : Row} (ht : t ∈ db.rows) {new obj : Row} (hf : ∀ r ∈ db.rows, r.pk ≠ new.pk) {pos : Pos}
    (hpos : IsSibPos pos) {cached : Option Row} (e : addSibling cfg db t cached (some pos) new = .ok (db', obj)) :
    (t.lft = 1 → ∃ t' ∈ db'.rows, t'.pk = t.pk ∧ t'.lft = 1 ∧ t'.depth = t.depth ∧ (pos = .right ∨ pos = .lastSibling → t' = t)) ∧
    (pos = .right → t ∈ db'.rows) := by
  unfold addSibling at e
  split at e
  · cases e
  · rename_i pos' ep
    have hp := prep_pos hpos ep
    subst hp
    have hns : pos' ≠ .sortedSibling := by rcases hpos with rfl | rfl | rfl | rfl <;> decide
    simp only [resolveSorted, hns, if_false] at e
    by_cases hl : t.lft = 1
    · rw [if_pos (by simp [Row.isRoot, hl])] at e
      have key : ∃ t' ∈ db'.rows, t'.pk = t.pk ∧ t'.lft = 1 ∧ t'.depth = t.depth ∧ (pos' = .right ∨ pos' = .lastSibling → t' = t) := by
        unfold addRootSibling at e
        split at e
        · cases e
        · rename_i z hz
          simp only at e
          split at e
          · cases e
            exact ⟨t, mem_save ht (hf t ht), rfl, hl, rfl, fun _ => rfl⟩
          · rename_i hlast
            have hmem : ∀ T obj', obj'.pk = new.pk → treeRightRow T t ∈ (save (moveTreeRight db T) obj').rows := by
              intro T obj' hk
              refine mem_save (by unfold moveTreeRight; exact List.mem_map_of_mem ht) ?_
              rw [hk]
              unfold treeRightRow
              split <;> exact hf t ht
            have hrow : ∀ T, (treeRightRow T t).pk = t.pk ∧ (treeRightRow T t).lft = 1 ∧ (treeRightRow T t).depth = t.depth := by
              intro T; unfold treeRightRow; split <;> exact ⟨rfl, hl, rfl⟩
            rcases hpos with rfl | rfl | rfl | rfl
            · cases e
              exact ⟨_, hmem _ _ rfl, (hrow _).1, (hrow _).2.1, (hrow _).2.2, by rintro (h | h) <;> cases h⟩
            · cases e
              exact ⟨_, hmem _ _ rfl, (hrow _).1, (hrow _).2.1, (hrow _).2.2, by rintro (h | h) <;> cases h⟩
            · cases e
              refine ⟨_, hmem _ _ rfl, (hrow _).1, (hrow _).2.1, (hrow _).2.2, fun _ => ?_⟩
              unfold treeRightRow
              rw [if_neg (by omega)]
            · exact absurd (Or.inl rfl) hlast
      refine ⟨fun _ => key, ?_⟩
      intro hr
      obtain ⟨t', ht', _, _, _, h5⟩ := key
      rw [h5 (Or.inl hr)] at ht'
      exact ht'
    · refine ⟨fun h => absurd h hl, ?_⟩
      intro hr
      subst hr
      rw [if_neg (by simp [Row.isRoot, hl])] at e
      rcases getParent_spec h ht with ⟨h1, _⟩ | ⟨_, p, hi, hpar, hgp⟩
      · exact absurd h1 hl
      · obtain ⟨pos', t', er, hres⟩ := resolvePos_spec h ht (pos := .right) (by simp [IsSibPos])
        unfold addInnerSibling at e
        rw [er] at e
        simp only at e
        have hmem : ∀ T l obj', obj'.pk = new.pk → (l ≤ t.rgt → T = t.tree → False) → t ∈ (save (alterGap db T l 2) obj').rows := by
          intro T l obj' hk hcond
          refine mem_save ?_ (by rw [hk]; exact hf t ht)
          unfold alterGap
          refine List.mem_map.2 ⟨t, ht, ?_⟩
          unfold gapRow
          rw [if_neg]
          rintro ⟨h1, h2⟩
          exact hcond h1 h2.symm
        rcases hres.cases with ⟨e1, e2, _⟩ | ⟨e1, hc⟩
        · subst e1 e2
          simp only [reduceCtorEq, if_true, if_false] at e
          rw [hgp] at e
          cases e
          exact hmem _ _ _ rfl (fun h1 _ => by have := hi.2.1.2.2; omega)
        · have hne : pos' ≠ .lastSibling := by rcases e1 with rfl | ⟨rfl, _⟩ <;> decide
          have hor : pos' = .firstSibling ∨ pos' = .left := e1.elim Or.inr (fun h => Or.inl h.1)
          rw [if_neg hne, if_pos hor] at e
          have hlt : lt t t' := by
            rcases hc with ⟨h, _⟩ | ⟨h, _⟩ | ⟨_, h, _⟩
            · cases h
            · cases h
            · exact h
          have hp' : Inner db.rows p t' := by
            rw [← par_row h hi.1 hres.mem, hres.par, hpar]
          have := sib_right h ht hres.mem hi hp' hlt
          cases e
          exact hmem _ _ _ rfl (fun h1 _ => by omega)

end Verif.NS
