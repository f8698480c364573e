/-
MP: `add_sibling` with a target object whose path is not the stored one.
-/
import Verif.MP.Add

namespace Verif.MP

variable {cfg : Cfg} {db db' : DB}

/-- an object of the stored row `t` whose path may be old, but only in its last step -/
structure Nearby (cfg : Cfg) (target t : Row) : Prop where
  pk : target.pk = t.pk
  depth : target.depth = t.depth
  path : ∃ n, n < cfg.cap ∧ target.path = pp cfg.steplen t.path ++ stp cfg n

theorem Nearby.refl (h : PInv cfg db.rows) {t : Row} (ht : t ∈ db.rows) : Nearby cfg t t := by
  obtain ⟨n, _, hn, e⟩ := h.pos t ht
  exact ⟨rfl, rfl, n, hn, e⟩

theorem Nearby.base (hok : cfg.Ok) (h : PInv cfg db.rows) {target t : Row} (ht : t ∈ db.rows) (hn : Nearby cfg target t) (d : Nat) (hd : d = t.depth) :
    basepath cfg target.path ((d : Int) - 1) = basepath cfg t.path ((d : Int) - 1) := by
  obtain ⟨n, hn1, e⟩ := hn.path
  rw [hd, h.basepath hok ht, e, basepath_parent (h.depth_pos hok ht) (by rw [step_len hok _ hn1, depth_mul h ht]), pp_step hok _ hn1]

theorem Nearby.siblings (hok : cfg.Ok) (h : PInv cfg db.rows) {target t : Row} (ht : t ∈ db.rows) (hn : Nearby cfg target t) :
    siblings cfg db target = siblings cfg db t := by
  unfold MP.siblings
  rw [hn.depth, hn.base hok h ht _ rfl]

/-- The ends of the group, and the place right of a target whose path is current, do not depend on the rest of the object. -/
theorem Nearby.addSibling (hok : cfg.Ok) (h : PInv cfg db.rows) {target t : Row} (ht : t ∈ db.rows) (hn : Nearby cfg target t) {pos : Pos}
    (hpos : pos = .firstSibling ∨ pos = .lastSibling ∨ (pos = .right ∧ target.path = t.path)) (new : Row) :
    addSibling cfg db target (some pos) new = addSibling cfg db t (some pos) new := by
  have hs := hn.siblings hok h ht
  have hlast : lastSibling cfg db target = lastSibling cfg db t := by unfold lastSibling; rw [hs]
  have hsame : sameNode target (lastSibling cfg db t) = sameNode t (lastSibling cfg db t) := by
    cases lastSibling cfg db t with
    | none => rfl
    | some l => unfold sameNode; simp only; rw [hn.pk]
  have hplace : ∀ pos', (pos' = .firstSibling ∨ (pos' = .right ∧ target.path = t.path)) → placeSiblings cfg db pos' target = placeSiblings cfg db pos' t := by
    intro pos' hp
    obtain ⟨n, hn1, e⟩ := hn.path
    obtain ⟨m, _, hm, e'⟩ := h.pos t ht
    unfold placeSiblings
    rw [hs]
    rcases hp with rfl | ⟨rfl, hp⟩
    · rw [show lastpos cfg target.path = .ok n from by rw [e, lastpos_eq hok _ hn1], show lastpos cfg t.path = .ok m from by rw [e', lastpos_eq hok _ hm]]
    · rw [hp]
  have hreorder : reorder cfg db pos none t.depth target [] none = reorder cfg db pos none t.depth t [] none := by
    unfold reorder
    rw [hlast, hsame]
    split
    · rfl
    · rename_i hl
      simp only
      rw [hplace pos (by
        rcases hpos with rfl | rfl | hp
        · exact Or.inl rfl
        · exact absurd (Or.inl rfl) hl
        · exact Or.inr hp)]
      split
      · rfl
      · unfold getPath
        rw [hn.base hok h ht _ rfl]
  have hns : pos ≠ .sortedSibling := by rcases hpos with rfl | rfl | ⟨rfl, _⟩ <;> decide
  unfold MP.addSibling
  split
  · rfl
  · rename_i pos' e
    have : pos' = pos := by
      unfold preparePosForAddSibling preparePosVar at e
      revert e
      rcases hpos with rfl | rfl | ⟨rfl, _⟩ <;> cases cfg.ordered <;> simp [validPosForAddSibling, validPosForSortedAddSibling] <;> exact fun h => h.symm
    subst this
    simp only [hns, if_false, hn.depth]
    rw [hreorder]

/-! ### A row that stands before the new place stays where it is -/

theorem setNewpath_still {old new : List Nat} (e : setNewpath cfg db old new = .ok db') {r : Row} (hr : r ∈ db.rows) (hn : ¬ old <+: r.path) : r ∈ db'.rows := by
  unfold setNewpath at e
  simp only at e
  split at e
  · cases e
    refine List.mem_map.2 ⟨r, hr, ?_⟩
    unfold newpathRow
    rw [if_neg]
    simpa [List.isPrefixOf_iff_prefix] using hn
  · cases e

theorem shiftLoop_still {r : Row} : ∀ (l : List Row) (db db' : DB) (old old' : Option (List Nat)), shiftLoop cfg l db old = .ok (db', old') → r ∈ db.rows →
    (∀ n ∈ l, ¬ n.path <+: r.path) → r ∈ db'.rows := by
  intro l
  induction l with
  | nil =>
    intro db db' old old' e hr _
    cases e
    exact hr
  | cons n l ih =>
    intro db db' old old' e hr hl
    unfold shiftLoop at e
    split at e
    · cases e
    · split at e
      · cases e
      · rename_i db1 e1
        exact ih _ _ _ _ e (setNewpath_still e1 hr (hl n (by simp))) (fun m hm => hl m (List.mem_cons_of_mem _ hm))

theorem collectShift_sub : ∀ (l : List Row) (prior : List Nat) (moves : List Row), collectShift cfg l prior = .ok moves → ∀ n ∈ moves, n ∈ l := by
  intro l
  induction l with
  | nil =>
    intro prior moves e n hn
    cases e
    exact hn
  | cons a l ih =>
    intro prior moves e n hn
    unfold collectShift at e
    split at e
    · cases e; cases hn
    · split at e
      · cases e
      · split at e
        · cases e
        · rename_i l' e'
          cases e
          rcases List.mem_cons.1 hn with rfl | hn
          · simp
          · exact List.mem_cons_of_mem _ (ih _ _ e' n hn)

theorem save_still {row : Row} (e : save db row = .ok db') {r : Row} (hr : r ∈ db.rows) (hne : r.pk ≠ row.pk) : r ∈ db'.rows := by
  simp only [save] at e
  split at e
  · split at e
    · cases e
      refine List.mem_map.2 ⟨r, hr, ?_⟩
      rw [if_neg (by simpa using hne)]
    · cases e
  · split at e
    · cases e
      exact List.mem_append_left _ hr
    · cases e

theorem finishAddSibling_still {d : Nat} {newpath : List Nat} {new obj : Row} (e : finishAddSibling cfg db d newpath new = .ok (db', obj)) {r : Row}
    (hr : r ∈ db.rows) (hne : r.pk ≠ new.pk) : ∃ r' ∈ db'.rows, r'.pk = r.pk ∧ r'.path = r.path := by
  unfold finishAddSibling at e
  simp only at e
  obtain ⟨r1, hr1, h1, h2⟩ : ∃ r1 ∈ (if basepath cfg newpath ((d : Int) - 1) ≠ [] then addNumchild db (basepath cfg newpath ((d : Int) - 1)) 1 else db).rows,
      r1.pk = r.pk ∧ r1.path = r.path := by
    split
    · refine ⟨_, List.mem_map_of_mem hr, ?_⟩
      split <;> exact ⟨rfl, rfl⟩
    · exact ⟨r, hr, rfl, rfl⟩
  split at e
  · cases e
  · rename_i db1 es
    cases e
    exact ⟨r1, save_still es hr1 (by rw [h1]; exact hne), h1, h2⟩

theorem addSibling_right_still (hok : cfg.Ok) (h : PInv cfg db.rows) {t new obj : Row} (ht : t ∈ db.rows) (hf : ∀ r ∈ db.rows, r.pk ≠ new.pk) {pos : Pos}
    (hpos : pos = .right ∨ pos = .lastSibling) (e : addSibling cfg db t (some pos) new = .ok (db', obj)) : ∃ t' ∈ db'.rows, t'.pk = t.pk ∧ t'.path = t.path := by
  unfold addSibling at e
  split at e
  · cases e
  · rename_i pos' e'
    have : pos' = pos := by
      unfold preparePosForAddSibling preparePosVar at e'
      revert e'
      rcases hpos with rfl | rfl <;> cases cfg.ordered <;> simp [validPosForAddSibling, validPosForSortedAddSibling] <;> exact fun h => h.symm
    subst this
    have hns : pos' ≠ .sortedSibling := by rcases hpos with rfl | rfl <;> decide
    simp only [hns, if_false] at e
    split at e
    · cases e
    · rename_i db1 _ newpath er
      refine finishAddSibling_still e ?_ (hf t ht)
      by_cases hl : IsLastCase cfg db pos' t
      · unfold IsLastCase at hl
        unfold reorder at er
        rw [if_pos hl] at er
        split at er
        · cases er
        · split at er
          · cases er
          · cases er
            exact ht
      · rw [reorder_none hl] at er
        have hr : pos' = .right := hpos.resolve_right (fun hc => hl (Or.inl hc))
        subst hr
        split at er
        · cases er
        · rename_i n sibs ep
          have hsibs : ∀ r ∈ sibs, ¬ r.path <+: t.path := by
            intro r hr hpre
            unfold placeSiblings at ep
            split at ep
            · cases ep
            · cases ep
              obtain ⟨hr1, hr2⟩ := List.mem_filter.1 hr
              obtain ⟨hr3, hr4⟩ := (mem_siblings h hok ht).1 hr1
              have hlen : r.path.length = t.path.length := by
                have h1 := (h.inv.len r hr3).2
                have h2 := (h.inv.len t ht).2
                have := congrArg List.length hr4
                rw [pp_length, pp_length] at this
                omega
              rw [hpre.eq_of_length hlen] at hr2
              simp at hr2
          unfold reorderRest at er
          split at er
          · cases er
          · simp only at er
            split at er
            · cases er
            · rename_i moves ec
              split at er
              · cases er
              · rename_i db2 old' es
                have : t ∈ db2.rows := shiftLoop_still _ _ _ _ _ es ht (fun n hn => hsibs n (collectShift_sub _ _ _ ec n (List.mem_reverse.1 hn)))
                split at er
                · cases er
                  exact this
                · rename_i o eo
                  exfalso
                  have hnone : ∀ (l : List Row) (db db' : DB) (o : Option (List Nat)), shiftLoop cfg l db none = .ok (db', o) → o = none := by
                    intro l
                    induction l with
                    | nil => intro db db' o e; cases e; rfl
                    | cons n l ih =>
                      intro db db' o e
                      unfold shiftLoop at e
                      split at e
                      · cases e
                      · split at e
                        · cases e
                        · exact ih _ _ _ e
                  have := hnone _ _ _ _ es
                  cases this

end Verif.MP
