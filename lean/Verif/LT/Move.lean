/-
LT: moves.
-/
import Verif.LT.Add

namespace Verif.LT

variable {cfg : Cfg} {db db' : DB} {rows : List Row} {pre : Path} {before after : Option Row} {l : Label} {moved : Bool}

/-! ### The rewriting of the branch -/

/-- the row with its path rewritten -/
def renRow (old new : Path) (r : Row) : Row := { r with path := ren old new r.path }

theorem finishMove_rows (h : PI db.rows) {x : Row} (hx : x ∈ db.rows) (new : Path) :
    (finishMove db x new).1.rows = db.rows.map (renRow x.path new) := by
  unfold finishMove
  simp only
  unfold save
  have hany : (rewriteBelow x.path new db.rows).any (fun r => r.pk == ({ x with path := new } : Row).pk) = true := by
    rw [List.any_eq_true]
    refine ⟨x, ?_, by simp⟩
    unfold rewriteBelow
    rw [List.mem_map]
    refine ⟨x, hx, ?_⟩
    rw [if_neg]
    simp
  simp only [hany, if_true]
  unfold rewriteBelow
  rw [List.map_map]
  refine List.map_congr_left ?_
  intro r hr
  rw [Function.comp_apply]
  unfold renRow
  by_cases hrx : r = x
  · subst hrx
    rw [ren_of_prefix [] (by simp), List.append_nil]
    have hc : ¬ (r.path.isPrefixOf r.path && decide (r.path.length < r.path.length)) = true := by simp
    rw [if_neg hc, if_pos (by simp)]
  · have hk : r.pk ≠ x.pk := fun e => hrx (h.pk_inj hr hx e)
    by_cases hp : x.path <+: r.path
    · obtain ⟨u, hu⟩ := hp
      have hl : x.path.length < r.path.length := by
        have := branch_long h hx hr hrx hu.symm
        rw [← hu, List.length_append]; omega
      rw [ren_of_prefix u hu.symm]
      have hc : (x.path.isPrefixOf r.path && decide (x.path.length < r.path.length)) = true := by
        rw [Bool.and_eq_true, List.isPrefixOf_iff_prefix]
        exact ⟨⟨u, hu⟩, decide_eq_true hl⟩
      rw [if_pos hc]
      simp only [beq_iff_eq, hk, if_false]
      rw [← hu, List.drop_left]
    · rw [ren_of_not_prefix hp]
      have hc : ¬ (x.path.isPrefixOf r.path && decide (x.path.length < r.path.length)) = true := by
        rw [Bool.and_eq_true, List.isPrefixOf_iff_prefix]
        exact fun hc => hp hc.1
      rw [if_neg hc]
      simp only [beq_iff_eq, hk, if_false]

theorem refreshed_eq (h : Inv db.rows) (hp : NewPath db pre before after db' l moved) {x : Row} (hx : x ∈ db.rows) :
    refreshed db' x moved = .ok (gRow moved pre before x) := by
  cases moved with
  | false => rfl
  | true =>
    unfold refreshed
    have h1 : Inv db'.rows := by rw [hp.rows]; exact g_inv h
    have : db'.get? x.pk = some (gRow true pre before x) := by
      rw [get?_eq_some h1.inv, hp.rows]
      exact ⟨List.mem_map_of_mem hx, gRow_pk x⟩
    rw [if_pos rfl, this]

theorem data_ren (old new : Path) (rows : List Row) : data (rows.map (renRow old new)) = data rows := by
  unfold data
  rw [List.map_map]
  rfl

/-! ### Results -/

/-- The row `x` was moved: the other rows keep their parents, those left of it their places, and under `Clean` the forest is
exactly `A`. -/
structure Moved (db db' : DB) (obj x : Row) (A : Forest) (p : Option Nat) (Clean : Prop) : Prop where
  inv : Inv db'.rows
  near : A.UpToRight (PF db'.rows) p x.pk
  exact : Clean → PF db'.rows = A
  data : data db'.rows = data db.rows
  obj : obj ∈ db'.rows ∧ obj.pk = x.pk

theorem moved_place (h : Inv db.rows) (hn : Nbrs db.rows pre before after) (hp : NewPath db pre before after db' l moved)
    (hpar : IsPar db.rows pre) {x : Row} (hx : x ∈ db.rows) (hin : ¬ x.path <+: pre) {s : Slot}
    (hs : GapSlot (fun r => r ∈ db.rows ∧ r ≠ x) Row.pk (par db.rows) (fun a b => a.path < b.path) (LeftOf after) (at? db.rows pre) s)
    {Clean : Prop} (hc : Clean → moved = false ∨ KeepsOrder db.rows pre) :
    Moved db (finishMove db' (gRow moved pre before x) (pre ++ [l])).1 (finishMove db' (gRow moved pre before x) (pre ++ [l])).2 x
      ((PF db.rows).move x.pk (at? db.rows pre) s) (at? db.rows pre) Clean := by
  have h1 : Inv db'.rows := by rw [hp.rows]; exact g_inv h
  have hx1 : gRow moved pre before x ∈ db'.rows := by rw [hp.rows]; exact List.mem_map_of_mem hx
  have hrows := finishMove_rows h1.inv hx1 (pre ++ [l])
  have := move_place h hn hp hpar hx hin (f := renRow (gRow moved pre before x).path (pre ++ [l])) (fun _ _ => rfl) (fun _ _ => rfl) hs
  rw [← hrows] at this
  refine ⟨this.1, this.2.1, fun c => this.2.2 (hc c), ?_, ?_, ?_⟩
  · rw [hrows, data_ren, hp.rows, data_g]
  · rw [hrows, List.mem_map]
    refine ⟨_, hx1, ?_⟩
    unfold renRow finishMove
    simp only
    rw [ren_of_prefix [] (by simp), List.append_nil]
  · exact gRow_pk x

/-! ### Refused moves -/

theorem isDescendantOf_iff (h : PI rows) {x t : Row} (hx : x ∈ rows) (ht : t ∈ rows) :
    t.isDescendantOf x = true ↔ (PF rows).Desc x.pk t.pk := by
  rw [desc_iff (L := 1) h (by omega) hx ht]
  unfold Row.isDescendantOf
  rw [Bool.and_eq_true, decide_eq_true_iff, List.isPrefixOf_iff_prefix]
  constructor
  · rintro ⟨hl, hp⟩
    exact ⟨hp, by rintro rfl; omega⟩
  · rintro ⟨hp, hne⟩
    obtain ⟨u, hu⟩ := hp
    have := branch_long h hx ht (Ne.symm hne) hu.symm
    refine ⟨?_, ⟨u, hu⟩⟩
    rw [← hu, List.length_append]; omega

theorem isChildPos_eq (pos : Pos) : isChildPos pos = pos.isChild := by
  cases pos <;> rfl

theorem move_refused (h : PI db.rows) {x t : Row} (hx : x ∈ db.rows) (ht : t ∈ db.rows) {posArg : Option Pos} {pos : Pos}
    (hpos : preparePosForMove cfg.ordered posArg = .ok pos) (hr : (PF db.rows).MoveRefused x.pk t.pk pos) :
    move cfg db x t posArg = .error .invalidMoveToDescendant := by
  unfold move
  rw [hpos]
  simp only
  rcases hr with hr | ⟨hr1, hr2⟩
  · have hd := (isDescendantOf_iff h hx ht).2 hr
    by_cases hc : isChildPos pos = true ∧ t.pk = x.pk
    · rw [if_pos hc]; rfl
    · rw [if_neg hc, if_pos hd]; rfl
  · rw [if_pos ⟨by rw [isChildPos_eq]; exact hr1, hr2⟩]; rfl

/-- what a move that is not refused does -/
theorem move_eq {x t : Row} (h : Inv db.rows) (hx : x ∈ db.rows) (ht : t ∈ db.rows) {posArg : Option Pos} {pos : Pos}
    (hpos : preparePosForMove cfg.ordered posArg = .ok pos) (hr : ¬ (PF db.rows).MoveRefused x.pk t.pk pos) :
    move cfg db x t posArg = commit (match getNewPath db (moveNeighbours cfg db x t pos).2 (moveNeighbours cfg db x t pos).1.1
            (moveNeighbours cfg db x t pos).1.2 false 2 with
        | .error e => .error e
        | .ok (db, newPath, moved) =>
          match refreshed db x moved with
          | .error e => .error e
          | .ok node => .ok (finishMove db node newPath)) ∧
    ¬ x.path <+: (if isChildPos pos then t.path else t.path.dropLast) := by
  have hd : ¬ t.isDescendantOf x = true := fun hd => hr (Or.inl ((isDescendantOf_iff h.inv hx ht).1 hd))
  have hc : ¬ (isChildPos pos = true ∧ t.pk = x.pk) := fun hc => hr (Or.inr ⟨by rw [← isChildPos_eq]; exact hc.1, hc.2⟩)
  constructor
  · unfold move
    rw [hpos]
    simp only
    rw [if_neg hc, if_neg hd]
    rfl
  · intro hp
    have key : x.path <+: t.path → t ≠ x → False := by
      intro hpre hne
      exact hr (Or.inl ((desc_iff (L := 1) h.inv (by omega) hx ht).2 ⟨hpre, Ne.symm hne⟩))
    split at hp
    · rename_i e
      exact key hp (fun e' => hc ⟨e, by rw [e']⟩)
    · refine key (hp.trans (List.dropLast_prefix _)) ?_
      rintro rfl
      have h1 := hp.length_le
      rw [List.length_dropLast] at h1
      have := len_pos h.inv hx
      omega

/-! ### `move` without order -/

/-- slots of a row's own place -/
theorem own_slot (h : PI rows) {x : Row} (hx : x ∈ rows) {s : Slot} {Left : Row → Prop}
    (hs : GapSlot (fun r => r ∈ rows ∧ r ≠ x) Row.pk (par rows) (fun a b => a.path < b.path) Left (at? rows x.path.dropLast) s)
    (hl : ∀ r ∈ rows, r ≠ x → r.path.dropLast = x.path.dropLast → (Left r ↔ r.path < x.path)) :
    PF rows = (PF rows).move x.pk (at? rows x.path.dropLast) s := by
  have hpar := IsPar.drop h hx
  have hparx : par rows x = at? rows x.path.dropLast := (par_iff h hpar hx).2 rfl
  have tri : ∀ r ∈ rows, r ≠ x → ¬ r.path < x.path → x.path < r.path := by
    intro r hr hne hc
    rcases plt_trichotomy r.path x.path with h1 | h1 | h1
    · exact absurd h1 hc
    · exact absurd (h.path_inj hr hx h1) hne
    · exact h1
  have hps : PSlot 1 Row.pk Row.path (fun r => r ∈ rows ∧ r ≠ x) x.path s := by
    cases s with
    | first =>
      rintro r ⟨hr, hne⟩ e
      rw [pp_one, pp_one] at e
      exact tri r hr hne (fun hc => hs r ⟨hr, hne⟩ ((par_iff h hpar hr).2 e) ((hl r hr hne e).2 hc))
    | last =>
      rintro r ⟨hr, hne⟩ e
      rw [pp_one, pp_one] at e
      exact (hl r hr hne e).1 (hs r ⟨hr, hne⟩ ((par_iff h hpar hr).2 e))
    | before t =>
      obtain ⟨tr, ⟨h1, h1'⟩, h2, h3, h4, h5⟩ := hs
      have h3' := (par_iff h hpar h1).1 h3
      refine ⟨tr, ⟨h1, h1'⟩, h2, by rw [pp_one, pp_one]; exact h3', tri tr h1 h1' (fun hc => h4 ((hl tr h1 h1' h3').2 hc)), ?_⟩
      rintro r ⟨hr, hne⟩ e hlt
      rw [pp_one, pp_one] at e
      exact (hl r hr hne e).1 (h5 r ⟨hr, hne⟩ ((par_iff h hpar hr).2 e) hlt)
    | after t =>
      obtain ⟨tr, ⟨h1, h1'⟩, h2, h3, h4, h5⟩ := hs
      have h3' := (par_iff h hpar h1).1 h3
      refine ⟨tr, ⟨h1, h1'⟩, h2, by rw [pp_one, pp_one]; exact h3', (hl tr h1 h1' h3').1 h4, ?_⟩
      rintro r ⟨hr, hne⟩ e hlt
      rw [pp_one, pp_one] at e
      exact tri r hr hne (fun hc => h5 r ⟨hr, hne⟩ ((par_iff h hpar hr).2 e) hlt ((hl r hr hne e).2 hc))
  have := stay_move (L := 1) h (by omega) hx (shows_pforest h) hps
  rw [← hparx]
  exact this

/-- the neighbours, and the slot that means the forest asked for -/
theorem moveNeighbours_plain (h : PI db.rows) {x t : Row} (hx : x ∈ db.rows) (ht : t ∈ db.rows) {pos : Pos} (hpos : IsPlainPos pos) :
    ∃ s, (moveNeighbours cfg db x t pos).2 = (if isChildPos pos then t.path else t.path.dropLast) ∧
    Nbrs db.rows (moveNeighbours cfg db x t pos).2 (moveNeighbours cfg db x t pos).1.1 (moveNeighbours cfg db x t pos).1.2 ∧
    GapSlot (fun r => r ∈ db.rows ∧ r ≠ x) Row.pk (par db.rows) (fun a b => a.path < b.path) (LeftOf (moveNeighbours cfg db x t pos).1.2)
      (at? db.rows (moveNeighbours cfg db x t pos).2) s ∧
    (PF db.rows).move x.pk (at? db.rows (moveNeighbours cfg db x t pos).2) s = (PF db.rows).moveAsked x.pk (par db.rows t) t.pk pos ∧
    (pos = .lastSibling ∨ pos = .lastChild → (moveNeighbours cfg db x t pos).1.1 = none) := by
  have hS := lists_siblings h ht
  have hC := lists_children h t
  have htS : t ∈ siblings db t := (hS.mem t).2 ⟨ht, rfl⟩
  have hpar := IsPar.drop h ht
  have hparC : IsPar db.rows t.path := Or.inr ⟨t, ht, rfl⟩
  have hpt : at? db.rows t.path.dropLast = par db.rows t := ((par_iff h hpar ht).2 rfl).symm
  have hR : ∀ r, (r ∈ db.rows ∧ r ≠ x) → r ∈ db.rows := fun r hr => hr.1
  rcases hpos with (rfl | rfl | rfl | rfl) | rfl | rfl
  · have hn := nbrs_first hS
    exact ⟨.first, rfl, hn, slot_first hn hR h hpar rfl, by show _ = _; rw [show (moveNeighbours cfg db x t .firstSibling).2 = t.path.dropLast from rfl, hpt]; rfl, by simp⟩
  · have hn := nbrs_left hS htS
    by_cases hxt : t = x
    · subst hxt
      have hA : (PF db.rows).moveAsked t.pk (par db.rows t) t.pk .left = PF db.rows := by
        simp [Forest.moveAsked, Forest.sibMove]
      have hl : ∀ r ∈ db.rows, r ≠ t → r.path.dropLast = t.path.dropLast → (LeftOf (prevSibling db t) r ↔ r.path < t.path) := by
        intro r hr hne e
        constructor
        · intro hL; exact hn.not_both hL t rfl
        · intro hlt
          rcases hn.adj r hr e with ⟨b, hb, hc⟩ | h1
          · simp only [Option.some.injEq] at hb
            subst hb; exact absurd hlt hc
          · exact h1
      have : ∃ s, GapSlot (fun r => r ∈ db.rows ∧ r ≠ t) Row.pk (par db.rows) (fun a b => a.path < b.path) (LeftOf (prevSibling db t))
          (at? db.rows t.path.dropLast) s := by
        cases ha : prevSibling db t with
        | none =>
          refine ⟨.first, ?_⟩
          rintro r _ _ ⟨a, e, _⟩
          cases e
        | some a =>
          have hn' : Nbrs db.rows t.path.dropLast (some t) (some a) := by rw [← ha]; exact hn
          refine ⟨.after a.pk, slot_after hn' hR h hpar rfl ⟨(hn'.a a rfl).1, ?_⟩⟩
          rintro rfl
          exact plt_irrefl _ (hn'.lt a a rfl rfl)
      obtain ⟨s, hs⟩ := this
      refine ⟨s, rfl, hn, hs, ?_, by simp⟩
      rw [hA]
      exact (own_slot h ht hs hl).symm
    · refine ⟨.before t.pk, rfl, hn, slot_before hn hR h hpar rfl ⟨ht, hxt⟩, ?_, by simp⟩
      rw [show (moveNeighbours cfg db x t .left).2 = t.path.dropLast from rfl, hpt]
      have hk : t.pk ≠ x.pk := fun e => hxt (h.pk_inj ht hx e)
      simp [Forest.moveAsked, Forest.sibMove, hk]
  · have hn := nbrs_right hS htS
    by_cases hxt : t = x
    · subst hxt
      have hA : (PF db.rows).moveAsked t.pk (par db.rows t) t.pk .right = PF db.rows := by
        simp [Forest.moveAsked, Forest.sibMove]
      have hl : ∀ r ∈ db.rows, r ≠ t → r.path.dropLast = t.path.dropLast → (LeftOf (some t) r ↔ r.path < t.path) := by
        intro r hr hne e
        constructor
        · rintro ⟨a, ha, hc⟩
          simp only [Option.some.injEq] at ha
          subst ha
          rcases plt_trichotomy r.path t.path with h1 | h1 | h1
          · exact h1
          · exact absurd (h.path_inj hr ht h1) hne
          · exact absurd h1 hc
        · intro hlt
          exact ⟨t, rfl, fun hc => plt_asymm hlt hc⟩
      have : ∃ s, GapSlot (fun r => r ∈ db.rows ∧ r ≠ t) Row.pk (par db.rows) (fun a b => a.path < b.path) (LeftOf (some t))
          (at? db.rows t.path.dropLast) s := by
        cases hb : nextSibling db t with
        | none =>
          have hn' : Nbrs db.rows t.path.dropLast none (some t) := by rw [← hb]; exact hn
          exact ⟨.last, slot_last hn' hR h hpar rfl⟩
        | some b =>
          have hn' : Nbrs db.rows t.path.dropLast (some b) (some t) := by rw [← hb]; exact hn
          refine ⟨.before b.pk, slot_before hn' hR h hpar rfl ⟨(hn'.b b rfl).1, ?_⟩⟩
          rintro rfl
          exact plt_irrefl _ (hn'.lt b b rfl rfl)
      obtain ⟨s, hs⟩ := this
      refine ⟨s, rfl, hn, hs, ?_, by simp⟩
      rw [hA]
      exact (own_slot h ht hs hl).symm
    · refine ⟨.after t.pk, rfl, hn, slot_after hn hR h hpar rfl ⟨ht, hxt⟩, ?_, by simp⟩
      rw [show (moveNeighbours cfg db x t .right).2 = t.path.dropLast from rfl, hpt]
      have hk : t.pk ≠ x.pk := fun e => hxt (h.pk_inj ht hx e)
      simp [Forest.moveAsked, Forest.sibMove, hk]
  · have hn := nbrs_last hS
    exact ⟨.last, rfl, hn, slot_last hn hR h hpar rfl, by show _ = _; rw [show (moveNeighbours cfg db x t .lastSibling).2 = t.path.dropLast from rfl, hpt]; rfl, fun _ => rfl⟩
  · have hn := nbrs_first hC
    exact ⟨.first, rfl, hn, slot_first hn hR h hparC rfl, by show _ = _; rw [show (moveNeighbours cfg db x t .firstChild).2 = t.path from rfl, at_of h ht]; rfl, by simp⟩
  · have hn := nbrs_last hC
    exact ⟨.last, rfl, hn, slot_last hn hR h hparC rfl, by show _ = _; rw [show (moveNeighbours cfg db x t .lastChild).2 = t.path from rfl, at_of h ht]; rfl, fun _ => rfl⟩

theorem dest_eq (h : PI db.rows) {t : Row} (ht : t ∈ db.rows) (pos : Pos) :
    at? db.rows (if isChildPos pos then t.path else t.path.dropLast) = pos.dest (par db.rows t) t.pk := by
  unfold Pos.dest
  rw [← isChildPos_eq]
  split
  · exact at_of h ht
  · exact ((par_iff h (IsPar.drop h ht) ht).2 rfl).symm

theorem move_unsorted (ho : cfg.ordered = false) (h : Inv db.rows) {x t : Row} (hx : x ∈ db.rows) (ht : t ∈ db.rows)
    {posArg : Option Pos} {pos : Pos} (hpos : preparePosForMove false posArg = .ok pos)
    (hr : ¬ (PF db.rows).MoveRefused x.pk t.pk pos) :
    ∃ db' obj, move cfg db x t posArg = .ok (db', obj) ∧
      Moved db db' obj x ((PF db.rows).moveAsked x.pk (par db.rows t) t.pk pos) (pos.dest (par db.rows t) t.pk)
        (pos = .lastSibling ∨ pos = .lastChild ∨ KeepsOrder db.rows (if isChildPos pos then t.path else t.path.dropLast)) := by
  obtain ⟨hplain, _⟩ := prepMove_arg hpos
  rw [← ho] at hpos
  obtain ⟨he, hin⟩ := move_eq h hx ht hpos hr
  obtain ⟨s, hpre, hn, hs, hA, hlast⟩ := moveNeighbours_plain (cfg := cfg) h.inv hx ht hplain
  obtain ⟨db1, l, moved, hg, hp, hw⟩ := getNewPath_spec h hn
  have hpar : IsPar db.rows (moveNeighbours cfg db x t pos).2 := by
    rw [hpre]
    split
    · exact Or.inr ⟨t, ht, rfl⟩
    · exact IsPar.drop h.inv ht
  have hm := moved_place h hn hp hpar hx (by rw [hpre]; exact hin) hs
    (Clean := pos = .lastSibling ∨ pos = .lastChild ∨ KeepsOrder db.rows (if isChildPos pos then t.path else t.path.dropLast)) (by
      have nm : (pos = .lastSibling ∨ pos = .lastChild) → moved = false := by
        intro e
        cases moved with
        | false => rfl
        | true =>
          obtain ⟨b, hb⟩ := hp.gap rfl
          rw [hlast e] at hb; cases hb
      rintro (e | e | e)
      · exact Or.inl (nm (Or.inl e))
      · exact Or.inl (nm (Or.inr e))
      · right; rw [hpre]; exact e)
  rw [hA] at hm
  have hd : at? db.rows (moveNeighbours cfg db x t pos).2 = pos.dest (par db.rows t) t.pk := by rw [hpre]; exact dest_eq h.inv ht pos
  rw [hd] at hm
  refine ⟨_, _, ?_, hm⟩
  rw [he]
  simp only [hg, refreshed_eq h hp hx]
  exact commit_ok hm.inv.inv

/-! ### `move` with `node_order_by` -/

/-- some slot among the other rows is the gap -/
theorem slot_exists_ne (hn : Nbrs rows pre before after) (h : PI rows) (hpar : IsPar rows pre) {x : Row} :
    ∃ s, GapSlot (fun r => r ∈ rows ∧ r ≠ x) Row.pk (par rows) (fun a b => a.path < b.path) (LeftOf after) (at? rows pre) s ∧
      (before = none → s = .last) ∧ (∀ b, before = some b → b ≠ x → s = .before b.pk) ∧ (∀ b, before = some b → after = none → b = x → s = .first) := by
  have hR : ∀ r, (r ∈ rows ∧ r ≠ x) → r ∈ rows := fun r hr => hr.1
  cases hb : before with
  | none => exact ⟨.last, slot_last hn hR h hpar hb, fun _ => rfl, by simp, by simp⟩
  | some b =>
    by_cases hbx : b = x
    · cases ha : after with
      | none =>
        refine ⟨.first, slot_first (before := before) (after := none) (ha ▸ hn) hR h hpar rfl, by simp, ?_, fun _ _ _ _ => rfl⟩
        intro b' e hne
        simp only [Option.some.injEq] at e
        exact absurd (e ▸ hbx) hne
      | some a =>
        have hax : a ≠ x := by
          rintro rfl
          have := hn.lt b a hb ha
          rw [hbx] at this
          exact plt_irrefl _ this
        refine ⟨.after a.pk, slot_after (before := before) (after := some a) (ha ▸ hn) hR h hpar rfl ⟨(hn.a a ha).1, hax⟩, by simp, ?_, by simp⟩
        intro b' e hne
        simp only [Option.some.injEq] at e
        exact absurd (e ▸ hbx) hne
    · refine ⟨.before b.pk, slot_before hn hR h hpar hb ⟨(hn.b b hb).1, hbx⟩, by simp, ?_, fun b' e _ e' => absurd ((Option.some.inj e).trans e') hbx⟩
      intro b' e _
      simp only [Option.some.injEq] at e
      rw [e]

/-- what a move to a sorted place gives -/
def SortedMove (cfg : Cfg) (db : DB) (S : List Row) (pre : Path) (x : Row) (p : Option Nat) (out : Except Err (DB × Row)) : Prop :=
  (∃ b, firstGreater cfg S x = some b ∧ ∃ s db' obj, out = .ok (db', obj) ∧
    Moved db db' obj x ((PF db.rows).move x.pk p s) p (KeepsOrder db.rows pre) ∧ (b ≠ x → s = .before b.pk) ∧
    (b = x → (∀ r ∈ S, ¬ r.path < x.path) → s = .first)) ∨
  (firstGreater cfg S x = none ∧
    ((∃ db' l s, out = .ok (db', { x with path := pre ++ [l] }) ∧
      Moved db db' { x with path := pre ++ [l] } x ((PF db.rows).move x.pk p s) p True ∧
      ((∀ r ∈ db.rows, r.path.dropLast = pre → lastLabel r.path < l) → s = .last)) ∨
     (out = .error .valueError ∧ ∀ c ∈ upper, (∃ r ∈ db.rows, r.path = pre ++ [[c]]) ∧ ∀ d ∈ upper, ∃ r ∈ db.rows, r.path = pre ++ [[c, d]])))

theorem sortedMove_aux (h : Inv db.rows) {x : Row} (hx : x ∈ db.rows) {S : List Row} (hS : Lists db.rows pre S)
    (hpar : IsPar db.rows pre) (hin : ¬ x.path <+: pre) {nb : (Option Row × Option Row) × Path} (hpre : nb.2 = pre)
    (hsome : ∀ b, firstGreater cfg S x = some b → nb.1 = (some b, (S.filter (fun r => decide (r.path < b.path))).getLast?))
    (hnone : firstGreater cfg S x = none → nb.1 = (none, none)) :
    SortedMove cfg db S pre x (at? db.rows pre) (commit (match getNewPath db nb.2 nb.1.1 nb.1.2 false 2 with
        | .error e => .error e
        | .ok (db, newPath, moved) =>
          match refreshed db x moved with
          | .error e => .error e
          | .ok node => .ok (finishMove db node newPath))) := by
  rw [hpre]
  cases hb : firstGreater cfg S x with
  | some b =>
    left
    rw [hsome b hb]
    have hbS := firstGreater_mem hb
    have hn := nbrs_left hS hbS
    obtain ⟨db1, l, moved, hg, hp, hw⟩ := getNewPath_spec h hn
    obtain ⟨s, hs, _, hsb, hsf⟩ := slot_exists_ne (x := x) hn h.inv hpar
    have hm := moved_place h hn hp hpar hx hin hs (Clean := KeepsOrder db.rows pre) Or.inr
    refine ⟨b, hb, s, _, _, ?_, hm, hsb b rfl, fun e hmin => hsf b rfl ?_ e⟩
    rotate_left
    · rw [List.getLast?_eq_none_iff, List.filter_eq_nil_iff]
      intro r hr
      rw [e]
      simpa using hmin r hr
    simp only [hg, refreshed_eq h hp hx]
    exact commit_ok hm.inv.inv
  | none =>
    right
    refine ⟨hb, ?_⟩
    rw [hnone hb]
    simp only
    rcases generateLabel_none (skip := sibLabels db pre) with ⟨l, hl⟩ | ⟨hl, h1, h2⟩
    · left
      obtain ⟨bf, af, hn, hp, hlast⟩ := free_newPath h hl (pre := pre) (by
        intro r hr hd
        rw [mem_sibLabels h.inv]
        refine ⟨r, hr, ?_⟩
        have hs := path_split h.inv hr
        rw [hd] at hs
        exact hs)
      obtain ⟨s, hs, hsl, _, _⟩ := slot_exists_ne (x := x) hn h.inv hpar
      have hm := moved_place h hn hp hpar hx hin hs (Clean := True) (fun _ => Or.inl rfl)
      refine ⟨_, l, s, ?_, hm, fun ha => hsl (hlast ha)⟩
      rw [getNewPath_found (before := none) (after := none) rfl hl]
      simp only [refreshed, Bool.false_eq_true, if_false]
      exact commit_ok hm.inv.inv
    · right
      refine ⟨?_, ?_⟩
      · unfold getNewPath generatePath
        rw [show badOrder (labelOf none) (labelOf none) = false from rfl]
        rw [show ((below db pre (pre.length + 1)).map Row.path).map lastLabel = sibLabels db pre from rfl]
        rw [show labelOf none = none from rfl, hl]
        rfl
      · intro c hc
        exact ⟨(mem_sibLabels h.inv).1 (h1 c hc), fun d hd => (mem_sibLabels h.inv).1 (h2 c hc d hd)⟩

theorem move_sorted (ho : cfg.ordered = true) (h : Inv db.rows) {x t : Row} (hx : x ∈ db.rows) (ht : t ∈ db.rows)
    {posArg : Option Pos} {pos : Pos} (hpos : preparePosForMove true posArg = .ok pos)
    (hr : ¬ (PF db.rows).MoveRefused x.pk t.pk pos) :
    SortedMove cfg db (if isChildPos pos then children db t else siblings db t) (if isChildPos pos then t.path else t.path.dropLast) x
      (pos.dest (par db.rows t) t.pk) (move cfg db x t posArg) := by
  have hpos' := hpos
  rw [← ho] at hpos'
  obtain ⟨he, hin⟩ := move_eq h hx ht hpos' hr
  rw [he, ← dest_eq h.inv ht pos]
  rcases prepMoveSorted_arg hpos with rfl | rfl
  · have hS := lists_siblings h.inv ht
    refine sortedMove_aux (S := siblings db t) h hx hS (IsPar.drop h.inv ht) hin ?_ ?_ ?_
    · unfold moveNeighbours
      simp only
      split <;> rfl
    · intro b hb
      unfold moveNeighbours
      simp only
      rw [show (sortedPosQueryset cfg.orderBy Row.vals (siblings db t) x.vals).head? = some b from hb]
      simp only
      rw [prevSibling_eq h.inv ht (firstGreater_mem hb)]
    · intro hb
      unfold moveNeighbours
      simp only
      rw [show (sortedPosQueryset cfg.orderBy Row.vals (siblings db t) x.vals).head? = none from hb]
  · have hS := lists_children h.inv t
    refine sortedMove_aux (S := children db t) h hx hS (Or.inr ⟨t, ht, rfl⟩) hin ?_ ?_ ?_
    · unfold moveNeighbours
      simp only
      split <;> rfl
    · intro b hb
      have hbS := firstGreater_mem hb
      obtain ⟨hb1, hb2⟩ := (hS.mem b).1 hbS
      have hbl := len_pos h.inv hb1
      have hlen := congrArg List.length hb2
      rw [List.length_dropLast] at hlen
      have hsc : siblings db b = children db t := by
        unfold siblings children
        rw [hb2]
        congr 1
        omega
      unfold moveNeighbours
      simp only
      rw [show (sortedPosQueryset cfg.orderBy Row.vals (children db t) x.vals).head? = some b from hb]
      unfold prevSibling
      simp only
      rw [hsc]
    · intro hb
      unfold moveNeighbours
      simp only
      rw [show (sortedPosQueryset cfg.orderBy Row.vals (children db t) x.vals).head? = none from hb]

end Verif.LT
