/-
LT: how long the labels get.
-/
import Verif.LT.Mirror
import Verif.LT.History

namespace Verif.LT

variable {cfg : Cfg} {db db' : DB}

/-- all labels in the table have at most `M` characters -/
def LabelsIn (M : Nat) (db : DB) : Prop := ∀ r ∈ db.rows, ∀ l ∈ r.path, l.length ≤ M

theorem LabelsIn.mono {M N : Nat} (h : LabelsIn M db) (hmn : M ≤ N) : LabelsIn N db := fun r hr l hl => Nat.le_trans (h r hr l hl) hmn

theorem generateLabel_length {skip : List Label} {before after : Option Label} {l : Label} (h : generateLabel skip before after = .ok l) {M : Nat}
    (hM : 1 ≤ M) (ha : ∀ a, after = some a → a.length ≤ M) : l.length ≤ M + 1 := by
  unfold generateLabel at h
  dsimp only at h
  split at h
  · cases h
  · split at h
    · cases h
    · rename_i ls hls
      obtain ⟨i, hi, hs⟩ := tryLengths_ok h
      have h1 := (mem_product (scan_some hs).1).1
      have h2 := (charLists_sub hls).1
      have h3 : (startOf (charChoices before after) after).length ≤ M := by
        unfold startOf
        split
        · cases after with
          | none => simp
          | some a => exact ha a rfl
        · rw [List.length_take]; omega
      rw [List.length_take, List.length_append, List.length_singleton] at h1
      omega

theorem generatePath_length {pre p : Path} {before after : Option Label} {skip : List Path} (h : generatePath pre before after skip = .ok p) {M : Nat}
    (hM : 1 ≤ M) (ha : ∀ a, after = some a → a.length ≤ M) : ∃ l, p = pre ++ [l] ∧ l.length ≤ M + 1 := by
  unfold generatePath at h
  split at h
  · cases h
  · rename_i l e
    cases h
    exact ⟨l, rfl, generateLabel_length e hM ha⟩

theorem getNewPath_length {pre p : Path} {before after : Option Row} {moved m : Bool} {left : Nat}
    (h : getNewPath db pre before after moved left = .ok (db', p, m)) {M : Nat} (hM : 1 ≤ M) (ha : ∀ a, labelOf after = some a → a.length ≤ M) :
    ∃ l, p = pre ++ [l] ∧ l.length ≤ M + 1 := by
  induction left generalizing db before moved with
  | zero =>
    unfold getNewPath at h
    split at h
    · cases h
    · split at h
      · rename_i e; cases h; exact generatePath_length e hM ha
      · split at h
        · cases h
        · split at h <;> cases h
      · cases h
  | succ left ih =>
    unfold getNewPath at h
    split at h
    · cases h
    · split at h
      · rename_i e; cases h; exact generatePath_length e hM ha
      · split at h
        · cases h
        · split at h
          · cases h
          · exact ih h
      · cases h

/-- a label is missing only because there is no gap -/
theorem noGap_of_generatePath {pre : Path} {before after : Option Label} {skip : List Path}
    (h : generatePath pre before after skip = .error .invalidLabelConstraints) : noGap before (startOf (charChoices before after) after) = true := by
  unfold generatePath at h
  split at h
  · rename_i e eg
    cases h
    unfold generateLabel at eg
    dsimp only at eg
    split at eg
    · assumption
    · split at eg
      · rename_i er
        cases eg
        exfalso
        revert er
        generalize startOf (charChoices before after) after = s
        induction s with
        | nil => intro er; cases er
        | cons c cs ih =>
          intro er
          unfold charLists at er
          split at er
          · cases er
          · split at er
            · rename_i e1; cases er; exact ih e1
            · cases er
      · exfalso
        revert eg
        generalize ((List.range _).drop _) = is
        induction is with
        | nil => intro eg; cases eg
        | cons i is ih =>
          intro eg
          unfold tryLengths at eg
          split at eg
          · cases eg
          · exact ih eg
  · cases h

/-- nodes are moved right at most once -/
theorem getNewPath_once (h : Inv db.rows) {pre p : Path} {before after : Option Row} (hb : ∀ b, before = some b → b ∈ db.rows ∧ ∃ a, b.path = pre ++ [a])
    {m : Bool} (e : getNewPath db pre before after false 2 = .ok (db', p, m)) : db' = db ∨ ∃ b, before = some b ∧ db' = moveRight db b := by
  unfold getNewPath at e
  split at e
  · cases e
  · rename_i hbad
    split at e
    · cases e; exact .inl rfl
    · rename_i eg
      split at e
      · cases e
      · rename_i b
        obtain ⟨hbm, c, hbp⟩ := hb b rfl
        have hc : lastLabel b.path = c := by rw [hbp, lastLabel_append]
        have hcok : LabelOk c := hc ▸ lastLabel_ok h hbm
        have hgap := noGap_of_generatePath eg
        have hrows := moveRight_rows (db := db) hbp
        have h' : Inv (moveRight db b).rows := by rw [hrows]; exact shift_inv h _ _
        have hget : (moveRight db b).get? b.pk = some (shRow pre c b) := by
          rw [get?_eq_some h'.inv, hrows]
          exact ⟨List.mem_map_of_mem hbm, rfl⟩
        rw [hget] at e
        dsimp only at e
        have hlab : labelOf (some (shRow pre c b)) = some (c ++ [65]) := by
          show some (lastLabel (sh pre c b.path)) = _
          rw [hbp, show pre ++ [c] = pre ++ c :: [] from rfl, sh_moved (plt_irrefl c), lastLabel_append]
        have hlb : labelOf (some b) = some c := congrArg some hc
        rw [hlb] at hgap hbad
        unfold getNewPath at e
        split at e
        · cases e
        · split at e
          · cases e; exact .inr ⟨b, rfl, rfl⟩
          · rename_i eg2
            exfalso
            have hgap2 := noGap_of_generatePath eg2
            rw [hlab] at hgap2
            clear e eg eg2
            have ht : truthy (some c) = true := truthy_some.2 hcok.1
            have ht2 : truthy (some (c ++ [65])) = true := truthy_some.2 (by simp)
            have hch : charChoices (some c) (labelOf after) = digits ++ upper := by simp [charChoices, ht]
            have hch2 : charChoices (some (c ++ [65])) (labelOf after) = digits ++ upper := by simp [charChoices, ht2]
            rw [hch] at hgap
            rw [hch2] at hgap2
            generalize hs : startOf (digits ++ upper) (labelOf after) = s at hgap hgap2
            have hcs : ¬ c < s := by
              unfold startOf at hs
              split at hs
              · rename_i ha
                intro hlt
                apply hbad
                unfold badOrder
                rw [ht, ha]
                subst hs
                simpa using hlt
              · subst hs
                exact zero_le hcok
            unfold noGap at hgap hgap2
            rw [ht] at hgap
            rw [ht2] at hgap2
            simp only [Bool.true_and, Option.getD_some, Bool.or_eq_true, Bool.not_eq_true', decide_eq_false_iff_not, beq_iff_eq, Option.some.injEq] at hgap hgap2
            rcases hgap with hg | hg
            · have hsc : s = c := ((plt_trichotomy s c).resolve_left hg).resolve_right hcs
              subst hsc
              rcases hgap2 with h2 | h2
              · exact h2 (lt_snoc _ _)
              · simp at h2
            · subst hg
              rcases hgap2 with h2 | h2
              · exact h2 (plt_trans (lt_snoc _ 48) (lt_snoc _ 65))
              · simp at h2
          · cases e
    · cases e

theorem LabelsIn.moveRight {M : Nat} (h : LabelsIn M db) {b : Row} {pre : Path} {a : Label} (hb : b.path = pre ++ [a]) : LabelsIn (M + 1) (moveRight db b) := by
  intro r hr l hl
  rw [moveRight_rows hb] at hr
  obtain ⟨r0, h0, rfl⟩ := List.mem_map.1 hr
  change l ∈ sh pre a r0.path at hl
  rcases sh_cases pre a r0.path with ⟨l0, u, e, _, e2⟩ | ⟨_, e2⟩
  · rw [e2] at hl
    have hr0 := h r0 h0
    rw [e] at hr0
    rcases List.mem_append.1 hl with hl | hl
    · have := hr0 l (List.mem_append_left _ hl); omega
    · rcases List.mem_cons.1 hl with rfl | hl
      · have := hr0 l0 (by simp)
        rw [List.length_append, List.length_singleton]; omega
      · have := hr0 l (by simp [hl]); omega
  · rw [e2] at hl
    have := h r0 h0 l hl; omega

theorem path_ne {rows : List Row} (h : PI rows) (r : Row) (hr : r ∈ rows) : r.path ≠ [] := by
  have := (h.len r hr).2
  intro e
  rw [e] at this
  simp at this

/-- `_get_new_path` -/
theorem getNewPath_labels (h : Inv db.rows) {M : Nat} (hM : 1 ≤ M) (hl : LabelsIn M db) {pre p : Path} {before after : Option Row}
    (hb : ∀ b, before = some b → b ∈ db.rows ∧ ∃ a, b.path = pre ++ [a]) (ha : ∀ a, after = some a → a ∈ db.rows) {m : Bool}
    (e : getNewPath db pre before after false 2 = .ok (db', p, m)) : LabelsIn (M + 1) db' ∧ ∃ l, p = pre ++ [l] ∧ l.length ≤ M + 1 := by
  constructor
  · rcases getNewPath_once h hb e with rfl | ⟨b, eb, rfl⟩
    · exact hl.mono (by omega)
    · obtain ⟨_, a, hbp⟩ := hb b eb
      exact hl.moveRight hbp
  · refine getNewPath_length e hM (fun a ea => ?_)
    obtain ⟨r, er, rfl⟩ := Option.map_eq_some_iff.1 ea
    have hr := ha r er
    refine hl r hr _ ?_
    have hne : r.path ≠ [] := path_ne h.inv r hr
    unfold lastLabel
    rw [List.getLastD_eq_getLast?, List.getLast?_eq_some_getLast hne]
    exact List.getLast_mem hne

theorem LabelsIn.save {M : Nat} (h : LabelsIn M db) {r : Row} (hr : ∀ l ∈ r.path, l.length ≤ M) : LabelsIn M (save db r) := by
  intro q hq l hl
  unfold LT.save at hq
  dsimp only at hq
  split at hq
  · obtain ⟨q0, h0, rfl⟩ := List.mem_map.1 hq
    split at hl
    · exact hr l hl
    · exact h q0 h0 l hl
  · rcases List.mem_append.1 hq with hq | hq
    · exact h q hq l hl
    · cases List.mem_singleton.1 hq
      exact hr l hl

theorem snoc_labels {M : Nat} {pre : Path} {l : Label} (hp : ∀ l ∈ pre, l.length ≤ M) (hl : l.length ≤ M) : ∀ m ∈ pre ++ [l], m.length ≤ M := by
  intro m hm
  rcases List.mem_append.1 hm with hm | hm
  · exact hp m hm
  · cases List.mem_singleton.1 hm; exact hl

theorem sibNeighbours_after {t new a : Row} {pos : Pos} (htm : t ∈ db.rows) (ht : t.path ≠ [])
    (h : (sibNeighbours cfg db t pos new).2 = some a) : a ∈ db.rows := by
  have hs : ∀ {b r : Row}, b.path ≠ [] → prevSibling db b = some r → r ∈ db.rows := fun hb h =>
    (sib_path hb (List.mem_filter.1 (List.mem_of_getLast? h)).1).1
  unfold sibNeighbours at h
  split at h
  · split at h
    · cases h
    · rename_i b hb
      refine hs ?_ h
      obtain ⟨_, c, e⟩ := sib_path ht (firstGreater_mem hb)
      rw [e]; simp
  · cases h
  · exact hs ht h
  · cases h; exact htm
  · exact (sib_path ht (List.mem_of_getLast? h)).1
  · cases h

theorem addSiblingIn_labels (h : Inv db.rows) {M : Nat} (hM : 1 ≤ M) (hl : LabelsIn M db) {t new obj : Row} (ht : t ∈ db.rows) {pos : Option Pos}
    (e : addSiblingIn cfg db t pos new = .ok (db', obj)) : LabelsIn (M + 1) db' := by
  have hne := path_ne h.inv t ht
  unfold addSiblingIn at e
  split at e
  · cases e
  · split at e
    · cases e
    · rename_i e1
      cases e
      obtain ⟨h1, l, rfl, h2⟩ := getNewPath_labels h hM hl (fun b hb => sibNeighbours_path ht hne hb) (fun a ha => sibNeighbours_after ht hne ha) e1
      refine h1.save (snoc_labels (fun m hm => ?_) h2)
      have := hl t ht m ((List.dropLast_sublist _).subset hm); omega

theorem generated_labels {M : Nat} (hM : 1 ≤ M) (hl : LabelsIn M db) {pre p : Path} {after : Option Label} {skip : List Path} {new : Row}
    (hp : ∀ l ∈ pre, l.length ≤ M) (ha : ∀ a, after = some a → a.length ≤ M) (e : generatePath pre none after skip = .ok p) :
    LabelsIn (M + 1) (save db { new with path := p }) := by
  obtain ⟨l, rfl, h2⟩ := generatePath_length e hM ha
  exact (hl.mono (by omega)).save (snoc_labels (fun m hm => Nat.le_succ_of_le (hp m hm)) h2)

theorem addRoot_labels (h : Inv db.rows) {M : Nat} (hM : 1 ≤ M) (hl : LabelsIn M db) {new obj : Row}
    (e : addRoot cfg db new = .ok (db', obj)) : LabelsIn (M + 1) db' := by
  have e := commit_eq e
  split at e
  · rename_i last hlast
    split at e
    · exact addSiblingIn_labels h hM hl ((mem_rootNodes h.inv).1 (List.mem_of_getLast? hlast)).1 e
    · split at e
      · cases e
      · rename_i e1
        cases e
        exact generated_labels hM hl (by simp) (by simp) e1
  · split at e
    · cases e
    · rename_i e1
      cases e
      exact generated_labels hM hl (by simp) (by simp) e1

theorem lastLabel_mem {p : Path} (h : p ≠ []) : lastLabel p ∈ p := by
  unfold lastLabel
  rw [List.getLastD_eq_getLast?, List.getLast?_eq_some_getLast h]
  exact List.getLast_mem h

theorem addChild_labels (h : Inv db.rows) {M : Nat} (hM : 1 ≤ M) (hl : LabelsIn M db) {t new obj : Row} (ht : t ∈ db.rows)
    (e : addChild cfg db t new = .ok (db', obj)) : LabelsIn (M + 1) db' := by
  have e := commit_eq e
  split at e
  · cases e
  · split at e
    · split at e
      · cases e
      · rename_i last hlast
        exact addSiblingIn_labels h hM hl (child_path (List.mem_of_getLast? hlast)).1 e
    · split at e
      · cases e
      · rename_i e1
        cases e
        unfold newChildPath at e1
        split at e1
        · exact generated_labels hM hl (hl t ht) (by simp) e1
        · split at e1
          · cases e1
          · rename_i last hlast
            refine generated_labels hM hl (hl t ht) ?_ e1
            rintro a ⟨⟩
            have hm := (child_path (List.mem_of_getLast? hlast)).1
            exact hl last hm _ (lastLabel_mem (path_ne h.inv last hm))

theorem moveNeighbours_after {x t a : Row} {pos : Pos} (htm : t ∈ db.rows) (ht : t.path ≠ [])
    (h : (moveNeighbours cfg db x t pos).1.2 = some a) : a ∈ db.rows := by
  have hs : ∀ {b r : Row}, b.path ≠ [] → prevSibling db b = some r → r ∈ db.rows := fun hb h =>
    (sib_path hb (List.mem_filter.1 (List.mem_of_getLast? h)).1).1
  unfold moveNeighbours at h
  split at h
  · split at h
    · cases h
    · rename_i b hb
      refine hs ?_ h
      obtain ⟨_, c, e⟩ := sib_path ht (firstGreater_mem hb)
      rw [e]; simp
  · split at h
    · cases h
    · rename_i b hb
      refine hs ?_ h
      obtain ⟨_, c, e⟩ := child_path (firstGreater_mem hb)
      rw [e]; simp
  · cases h
  · exact (sib_path ht (List.mem_of_getLast? h)).1
  · exact hs ht h
  · cases h; exact htm
  · cases h
  · exact (child_path (List.mem_of_getLast? h)).1
  · cases h

theorem move_labels (h : Inv db.rows) {M : Nat} (hM : 1 ≤ M) (hl : LabelsIn M db) {x t obj : Row} (ht : t ∈ db.rows) {pos : Option Pos}
    (e : move cfg db x t pos = .ok (db', obj)) : LabelsIn (M + 1) db' := by
  have hne := path_ne h.inv t ht
  have e := commit_eq e
  split at e
  · cases e
  · rename_i pos' _
    split at e
    · cases e
    · split at e
      · cases e
      · split at e
        · cases e
        · rename_i db1 p m e1
          obtain ⟨h1, l, hp, h2⟩ := getNewPath_labels h hM hl (fun b hb => moveNeighbours_path ht hne hb) (fun a ha => moveNeighbours_after ht hne ha) e1
          have hnew : ∀ l ∈ p, l.length ≤ M + 1 := by
            rw [hp]
            refine snoc_labels (fun m hm => ?_) h2
            rw [moveNeighbours_parent] at hm
            have : m ∈ t.path := by
              split at hm
              · exact hm
              · exact (List.dropLast_sublist _).subset hm
            have := hl t ht m this; omega
          split at e
          · cases e
          · rename_i node en
            cases e
            have hrw : LabelsIn (M + 1) { db1 with rows := rewriteBelow node.path p db1.rows } := by
              intro r hr l hl'
              obtain ⟨r0, h0, rfl⟩ := List.mem_map.1 hr
              split at hl'
              · rcases List.mem_append.1 hl' with hl' | hl'
                · exact hnew l hl'
                · exact h1 r0 h0 l (List.mem_of_mem_drop hl')
              · exact h1 r0 h0 l hl'
            exact hrw.save hnew

theorem delete_labels {M : Nat} (hl : LabelsIn M db) {sel : Row → Bool} : LabelsIn M (delete db sel) := by
  intro r hr
  unfold delete at hr
  dsimp only at hr
  split at hr
  · exact hl r hr
  · exact hl r (List.mem_filter.1 hr).1

/-- one operation -/
theorem exec_labels (h : Consistent db) {M : Nat} (hM : 1 ≤ M) (hl : LabelsIn M db) (op : Op) (e : exec cfg db op = .ok db') : LabelsIn (M + 1) db' := by
  have map1 : ∀ {out : Except Err (DB × Row)}, out.map (·.1) = .ok db' → ∃ obj, out = .ok (db', obj) := by
    intro out e
    cases out with
    | error _ => cases e
    | ok y => cases e; exact ⟨y.2, rfl⟩
  cases op with
  | addRoot k v =>
    simp only [exec] at e
    split at e
    · cases e
    · obtain ⟨obj, e1⟩ := map1 e
      exact addRoot_labels h.inv hM hl e1
  | addChild t k v =>
    simp only [exec] at e
    split at e
    · cases e
    · cases e
    · rename_i et
      obtain ⟨obj, e1⟩ := map1 e
      exact addChild_labels h.inv hM hl (row_of h et).1 e1
  | addSibling t pos k v =>
    simp only [exec] at e
    split at e
    · cases e
    · cases e
    · rename_i et
      obtain ⟨obj, e1⟩ := map1 e
      exact addSiblingIn_labels h.inv hM hl (row_of h et).1 (commit_eq e1)
  | move x t pos =>
    simp only [exec] at e
    split at e
    · rename_i et
      obtain ⟨obj, e1⟩ := map1 e
      exact move_labels h.inv hM hl (row_of h et).1 e1
    · cases e
  | delete S =>
    simp only [exec] at e
    cases e
    exact (delete_labels hl).mono (by omega)

end Verif.LT
