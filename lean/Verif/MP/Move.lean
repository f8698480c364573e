/-
MP: move.
-/
import Verif.MP.Add

namespace Verif

namespace MP

variable {cfg : Cfg}

theorem Inv.stay (hok : cfg.Ok) (h : PInv cfg rows) {x : Row} (hx : x ∈ rows) {s : Slot}
    (hs : PSlot cfg.steplen Row.pk Row.path (fun r => r ∈ rows ∧ r ≠ x) x.path s) :
    (PF cfg rows).move x.pk (par cfg rows x) s = PF cfg rows :=
  (stay_move h.inv hok.step hx (shows_pforest h.inv) hs).symm

theorem isDescendantOf_iff (h : PInv cfg rows) {a b : Row} (ha : a ∈ rows) (hb : b ∈ rows) :
    a.isDescendantOf b = true ↔ b.path <+: a.path ∧ a ≠ b := by
  unfold Row.isDescendantOf
  rw [Bool.and_eq_true, List.isPrefixOf_iff_prefix, decide_eq_true_eq]
  refine and_congr_right (fun hpre => ?_)
  have h1 := h.depth a ha
  have h2 := h.depth b hb
  constructor
  · rintro hlt rfl; omega
  · intro hne
    by_contra hc
    have hle : a.path.length ≤ b.path.length := by
      rw [h1, h2]; exact Nat.mul_le_mul_right _ (by omega)
    exact hne (h.inv.path_inj ha hb (hpre.eq_of_length (by have := hpre.length_le; omega)).symm)

theorem pp_not_desc (hok : cfg.Ok) (h : PInv cfg rows) {x t : Row} (hx : x ∈ rows) (ht : t ∈ rows)
    (hd : ¬ t.isDescendantOf x = true) : ¬ x.path <+: pp cfg.steplen t.path := by
  intro hpre
  refine hd ((isDescendantOf_iff h ht hx).2 ⟨hpre.trans (pp_prefix _), ?_⟩)
  rintro rfl
  have := hpre.length_le
  rw [pp_length] at this
  have := (h.inv.len t ht).2
  have := hok.step
  omega

/-- Outcome of the reordering for a move of `x` below `P` at slot `s`. -/
def MovePlace (cfg : Cfg) (db : DB) (x : Row) (P : List Nat) (s : Slot)
    (r : Except Err (DB × Option (List Nat) × List Nat)) : Prop :=
  (∃ m db' f old', m < cfg.cap ∧ r = .ok (db', some old', P ++ stp cfg m) ∧
    Moved cfg db.rows db'.rows f x P s ∧ OldPar cfg db.rows db'.rows x P old') ∨
  (r = .error .pathOverflow ∧ LastUsed cfg db.rows P)

theorem movePlace_rest (hok : cfg.Ok) {db : DB} (h : PInv cfg db.rows) {x : Row} (hx : x ∈ db.rows)
    {target : Row} {newdepth : Nat} (hbase : basepath cfg target.path ((newdepth : Int) - 1) = P)
    (hp : Place cfg db.rows P m sibs (· ≠ x.pk) s) (hd : newdepth * cfg.steplen = P.length + cfg.steplen)
    (ht : sibs ≠ [] → target ∈ db.rows ∧ pp cfg.steplen target.path = P)
    (hempty : sibs = [] → pp cfg.steplen x.path ≠ P) (hat0 : x.path = P ++ stp cfg m → x ∈ sibs)
    (hroom : TempCase cfg x P m sibs → TempRoom cfg db.rows P) (hPx : ¬ x.path <+: P) :
    MovePlace cfg db x P s (reorderRest cfg db m newdepth target sibs (some x.path)) := by
  rcases reorderRest_move hok h hx hbase hp hd ht hempty hat0 hroom hPx with ⟨db', f, old', e, h1, h2⟩ | ⟨e, h1⟩
  · exact Or.inl ⟨m, db', f, old', hp.cap, e, h1, h2⟩
  · exact Or.inr ⟨e, h1.lastUsed hok hp.cap⟩

/-- moving to the last position: a single rename -/
theorem movePlace_last (hok : cfg.Ok) {db : DB} (h : PInv cfg db.rows) {x t : Row} (hx : x ∈ db.rows)
    (ht : t ∈ db.rows) (hd : ¬ t.isDescendantOf x = true) {pos : Pos} (hl : IsLastCase cfg db pos t)
    (newpos : Option Int) (d : Nat) (sibs : List Row) {s : Slot} (hs : sibSlot t.pk pos = some s)
    (hne : t.pk ≠ x.pk ∨ s = .last) :
    MovePlace cfg db x (pp cfg.steplen t.path) s (reorder cfg db pos newpos d t sibs (some x.path)) := by
  obtain ⟨last, e, hlm, hlp, hmax⟩ := lastSibling_spec hok h ht
  obtain ⟨n, hn1, hn, hle⟩ := h.sib_pos hlm hlp
  have hPx := pp_not_desc hok h hx ht hd
  unfold IsLastCase at hl
  unfold reorder
  rw [if_pos hl]
  simp only [e, hle]
  by_cases hcap : n + 1 < cfg.cap
  · left
    rw [incPath_eq hok _ hcap]
    have hlt : ∀ r ∈ db.rows, pp cfg.steplen r.path = pp cfg.steplen t.path →
        r.path < pp cfg.steplen t.path ++ stp cfg (n + 1) := by
      intro r hr hp
      have h2 : last.path < pp cfg.steplen t.path ++ stp cfg (n + 1) := by
        rw [hle, plt_append_left, stp_lt_iff hok hn hcap]; omega
      by_cases he : r = last
      · rw [he]; exact h2
      · exact plt_trans (hmax r hr hp he) h2
    have hno : ∀ r ∈ db.rows, r.path ≠ pp cfg.steplen t.path ++ stp cfg (n + 1) := by
      intro r hr e2
      have := hlt r hr (by rw [e2, pp_step hok _ hcap])
      rw [e2] at this
      exact plt_irrefl _ this
    have hP := h.isPar ht
    obtain ⟨db', e2, hm⟩ := rename_moved hok h hx (by omega) hcap hP hPx hno (s := s) (by
      rcases hl with hl | ⟨hl, hlast⟩
      · subst hl
        simp only [sibSlot, Option.some.injEq] at hs
        subst hs
        intro r hr hp
        rw [pp_step hok _ hcap] at hp
        exact hlt r hr.1 hp
      · subst hl
        simp only [sibSlot, Option.some.injEq] at hs
        subst hs
        rw [e, sameNode_iff] at hlast
        have htl := h.inv.pk_inj ht hlm hlast
        subst htl
        have hne : t.pk ≠ x.pk := by
          rcases hne with h | h
          · exact h
          · cases h
        refine ⟨t, ⟨ht, hne⟩, rfl, by rw [pp_step hok _ hcap], hlt t ht rfl, ?_⟩
        intro r hr hp hlt2
        rw [pp_step hok _ hcap] at hp
        by_cases he : r = t
        · rw [he] at hlt2; exact absurd hlt2 (plt_irrefl _)
        · exact absurd hlt2 (plt_asymm (hmax r hr.1 hp he)))
    have hxl := (h.inv.len x hx).2
    have hold := h.isPar hx
    have hfix : ∀ r ∈ db.rows, r.path = pp cfg.steplen x.path →
        (newpathRow cfg x.path (pp cfg.steplen t.path ++ stp cfg (n + 1)) r).path = pp cfg.steplen x.path :=
      fun r _ e => newpathRow_path_par hok hxl (by rw [pp_length]) e
    have hfixP : ∀ r ∈ db.rows, r.path = pp cfg.steplen t.path →
        (newpathRow cfg x.path (pp cfg.steplen t.path ++ stp cfg (n + 1)) r).path = pp cfg.steplen t.path := by
      intro r _ e
      rw [newpathRow_path, e, ren_of_not_prefix hPx]
    refine ⟨n + 1, db', _, x.path, hcap, by simp only [e2], hm, hxl, ?_, ?_, ?_, ?_⟩
    · rw [hm.eq]; exact hold.map hfix
    · rw [hm.eq]
      exact at?_map_par h hok (by rw [← hm.eq]; exact hm.pinv) (fun r _ => hm.keeps.pk r) hold hfix
    · rw [hm.eq]; exact hP.map hfixP
    · rw [hm.eq]
      exact at?_map_par h hok (by rw [← hm.eq]; exact hm.pinv) (fun r _ => hm.keeps.pk r) hP hfixP
  · right
    rw [incPath_overflow hok _ hn (by omega)]
    refine ⟨rfl, last, hlm, ?_⟩
    rw [hle, show n = cfg.cap - 1 by omega]

/-- The outcome of a move that shows the forest `F`. -/
structure MoveGood (cfg : Cfg) (db : DB) (res : MoveResult) (node target : Row) (P : List Nat) (F : Forest) : Prop where
  inv : Inv cfg res.db.rows
  forest : PF cfg res.db.rows = F
  data : data res.db.rows = data db.rows
  node : res.node ∈ res.db.rows ∧ res.node.pk = node.pk
  target : res.target.pk = target.pk
  dest : at? res.db.rows P = at? db.rows P

theorem finishMove_spec (hok : cfg.Ok) {db0 db : DB} (h : Inv cfg db0.rows) {x vt target target' : Row}
    (hx : x ∈ db0.rows) (hvt : vt ∈ db0.rows) (ht' : target'.pk = target.pk)
    (hm : Moved cfg db0.rows db.rows f x P s) (ho : OldPar cfg db0.rows db.rows x P old') {m : Nat} (hmc : m < cfg.cap) :
    ∃ res, finishMove cfg db x vt target target' old' (P ++ stp cfg m) = .ok res ∧
      MoveGood cfg db0 res x target P ((PF cfg db0.rows).move x.pk (at? db0.rows P) s) := by
  obtain ⟨h1, h2, h3⟩ := moved_counts hok h hx hm ho hmc
  have hget : ∀ r ∈ db0.rows, ∃ r', (updateParentCounts cfg db old' (P ++ stp cfg m)).get? r.pk = some r' := by
    intro r hr
    have : (r.pk, r.vals) ∈ data (updateParentCounts cfg db old' (P ++ stp cfg m)).rows := by
      rw [h3]; exact List.mem_map.2 ⟨r, hr, rfl⟩
    obtain ⟨r', hr', e⟩ := List.mem_map.1 this
    exact ⟨r', (get?_eq_some h1.inv).2 ⟨hr', congrArg Prod.fst e⟩⟩
  obtain ⟨x', ex⟩ := hget x hx
  obtain ⟨t', et⟩ := hget vt hvt
  have hx' := (get?_eq_some h1.inv).1 ex
  have ht'' := (get?_eq_some h1.inv).1 et
  unfold finishMove
  simp only [ex, et]
  refine ⟨_, rfl, h1, h2, h3, hx', ?_, ?_⟩
  · by_cases hc : vt.pk = target.pk
    · simp only [hc, if_true, ht''.2]
    · simp only [hc, if_false]; exact ht'
  · obtain ⟨g, e, og, _⟩ := updateParentCounts_rows (cfg := cfg) db ho.len (new := P ++ stp cfg m) (by rw [step_len hok P hmc]; omega)
    rw [← ho.at_new, e]
    exact at?_map (fun r _ => og.pk r) (fun r _ => og.path r) P

/-- The outcome of `moveTo`, where `F` is the forest asked for. -/
def MoveOut (cfg : Cfg) (db : DB) (node target : Row) (P : List Nat) (F : Forest) (r : Except Err MoveResult) : Prop :=
  (∃ res, r = .ok res ∧ MoveGood cfg db res node target P F) ∨
  (r = .error .pathOverflow ∧ LastUsed cfg db.rows P)

theorem moveTo_noop {db : DB} (h : Inv cfg db.rows) {x target target' : Row} (hx : x ∈ db.rows)
    (ht' : target'.pk = target.pk) {v : MoveVars} (hn : moveNoop cfg db x v = true) (P : List Nat) :
    MoveOut cfg db x target P (PF cfg db.rows) (moveTo cfg db x target target' v) := by
  left
  unfold moveTo
  rw [if_pos hn]
  exact ⟨_, rfl, h, rfl, rfl, ⟨hx, rfl⟩, ht', rfl⟩

theorem moveTo_place (hok : cfg.Ok) {db : DB} (h : Inv cfg db.rows) {x target target' : Row} (hx : x ∈ db.rows)
    (ht' : target'.pk = target.pk) {v : MoveVars} (hvt : v.target ∈ db.rows) (hn : ¬ moveNoop cfg db x v = true)
    (hp : MovePlace cfg db x P s (reorder cfg db v.pos v.newpos v.newdepth v.target v.sibs (some x.path))) :
    MoveOut cfg db x target P ((PF cfg db.rows).move x.pk (at? db.rows P) s) (moveTo cfg db x target target' v) := by
  unfold moveTo
  rw [if_neg hn]
  rcases hp with ⟨m, db', f, old', hm, e, h1, h2⟩ | ⟨e, h1⟩
  · left
    simp only [e, Option.getD_some]
    exact finishMove_spec hok h hx hvt ht' h1 h2 hm
  · right
    simp only [e]
    exact ⟨trivial, h1⟩

theorem par_pp (rows : List Row) (r : Row) : at? rows (pp cfg.steplen r.path) = par cfg rows r := rfl

/-- the path of the new parent -/
def destPath (cfg : Cfg) (pos : Pos) (t : Row) : List Nat :=
  if isChildPos pos = true then t.path else pp cfg.steplen t.path

/-- the new place is on the left of the old one, if both are below the same parent -/
def LeftOf (cfg : Cfg) (rows : List Row) (x t : Row) (pos : Pos) : Prop :=
  match pos with
  | .firstSibling | .firstChild => ∃ z ∈ rows, pp cfg.steplen z.path = destPath cfg pos t ∧ z.path < x.path
  | .left | .right => t.path < x.path
  | .sortedSibling | .sortedChild => ∃ z ∈ rows, pp cfg.steplen z.path = destPath cfg pos t ∧ z.path < x.path ∧
      keyLt cfg.orderBy x.vals z.vals
  | _ => False

/-- room for the temporary position, when the node moves left among its siblings -/
def MoveRoom (cfg : Cfg) (rows : List Row) (x t : Row) (pos : Pos) : Prop :=
  pp cfg.steplen x.path = destPath cfg pos t → LeftOf cfg rows x t pos → TempRoom cfg rows (destPath cfg pos t)

theorem moveNoop_iff {db : DB} {x : Row} {v : MoveVars} : moveNoop cfg db x v = true ↔
    (v.newdepth = x.depth ∧ ((v.pos = .firstSibling ∧ sameNode x (firstSibling cfg db v.target) = true) ∨
      (v.pos = .lastSibling ∧ sameNode x (lastSibling cfg db v.target) = true))) ∨
    (x.pk = v.target.pk ∧ (v.pos = .left ∨ ((v.pos = .right ∨ v.pos = .lastSibling) ∧
      sameNode v.target (lastSibling cfg db v.target) = true))) := by
  unfold moveNoop
  simp [Bool.or_eq_true, Bool.and_eq_true, beq_iff_eq]

/-- first sibling of a row -/
theorem firstSibling_spec (hok : cfg.Ok) {db : DB} (h : PInv cfg db.rows) {t : Row} (ht : t ∈ db.rows) :
    ∃ first, firstSibling cfg db t = some first ∧ first ∈ db.rows ∧
      pp cfg.steplen first.path = pp cfg.steplen t.path ∧
      ∀ r ∈ db.rows, pp cfg.steplen r.path = pp cfg.steplen t.path → r ≠ first → first.path < r.path := by
  have hne : siblings cfg db t ≠ [] := by
    intro e
    have := (mem_siblings h hok ht (r := t)).2 ⟨ht, rfl⟩
    rw [e] at this
    simp at this
  obtain ⟨first, hl⟩ : ∃ f, (siblings cfg db t).head? = some f := by
    cases hs : siblings cfg db t with
    | nil => exact absurd hs hne
    | cons a l => exact ⟨a, rfl⟩
  obtain ⟨h1, h2⟩ := head?_min (siblings_sorted h t) hl
  have h3 := (mem_siblings h hok ht).1 h1
  exact ⟨first, hl, h3.1, h3.2, fun r hr hp hne => h2 r ((mem_siblings h hok ht).2 ⟨hr, hp⟩) hne⟩

/-- the sibling right after a row that is not the last one -/
theorem place_self (hok : cfg.Ok) {db : DB} (h : PInv cfg db.rows) {x : Row} (hx : x ∈ db.rows)
    (hl : ¬ IsLastCase cfg db .right x) {n : Nat} (hn : n + 1 < cfg.cap)
    (hxe : x.path = pp cfg.steplen x.path ++ stp cfg n) :
    ∃ next, Place cfg db.rows (pp cfg.steplen x.path) (n + 1)
        ((siblings cfg db x).filter (fun r => decide (x.path < r.path))) (· ≠ x.pk) (.before next) ∧
      PSlot cfg.steplen Row.pk Row.path (fun r => r ∈ db.rows ∧ r ≠ x) x.path (.before next) := by
  have hpl := place_right (K := fun _ => True) hok h hx trivial hn hxe
  obtain ⟨last, e2, hlm, hlp2, hmax⟩ := lastSibling_spec hok h hx
  have hne : x ≠ last := by
    rintro rfl
    exact hl (Or.inr ⟨rfl, by rw [e2, sameNode_iff]⟩)
  have hlast : last ∈ (siblings cfg db x).filter (fun r => decide (x.path < r.path)) := by
    rw [List.mem_filter, mem_siblings h hok hx]
    exact ⟨⟨hlm, hlp2⟩, by simpa using hmax x hx rfl hne⟩
  obtain ⟨next, hnx⟩ : ∃ f, ((siblings cfg db x).filter (fun r => decide (x.path < r.path))).head? = some f := by
    cases hs : (siblings cfg db x).filter (fun r => decide (x.path < r.path)) with
    | nil => rw [hs] at hlast; simp at hlast
    | cons a l => exact ⟨a, rfl⟩
  obtain ⟨h1, h2⟩ := head?_min hpl.sorted hnx
  obtain ⟨h3, h4, h5⟩ := hpl.mem next h1
  have h6 : x.path < next.path := by simpa using (List.mem_filter.1 h1).2
  have hnk : next.pk ≠ x.pk := by
    intro e
    rw [h.inv.pk_inj h3 hx e] at h6
    exact plt_irrefl _ h6
  have hbet : ∀ r ∈ db.rows, r ≠ x → pp cfg.steplen r.path = pp cfg.steplen x.path → r.path < next.path →
      r.path < x.path := by
    intro r hr hrx hp hlt
    rcases plt_trichotomy r.path x.path with h7 | h7 | h7
    · exact h7
    · exact absurd (h.inv.path_inj hr hx h7) hrx
    · have hm : r ∈ (siblings cfg db x).filter (fun r => decide (x.path < r.path)) := by
        rw [List.mem_filter, mem_siblings h hok hx]
        exact ⟨⟨hr, hp⟩, by simpa using h7⟩
      by_cases he : r = next
      · rw [he] at hlt; exact absurd hlt (plt_irrefl _)
      · exact absurd hlt (plt_asymm (h2 r hm he))
  refine ⟨next.pk, ⟨hpl.isPar, hpl.one, hpl.cap, hpl.sorted, hpl.mem, ?_, ?_⟩, ?_⟩
  · exact fun r hr hp hlt _ => hpl.all r hr hp hlt trivial
  · refine ⟨next, ⟨h3, hnk⟩, rfl, by rw [pp_step hok _ hn]; exact h4, h5, ?_⟩
    rintro r ⟨hr, hrk⟩ hp hlt
    rw [pp_step hok _ hn] at hp
    have := hbet r hr (by rintro rfl; exact hrk rfl) hp hlt
    refine plt_trans this ?_
    conv => lhs; rw [hxe]
    rw [plt_append_left, stp_lt_iff hok (by omega) hn]; omega
  · refine ⟨next, ⟨h3, fun e => hnk (by rw [e])⟩, rfl, h4, h6, ?_⟩
    rintro r ⟨hr, hrx⟩ hp hlt
    exact hbet r hr hrx hp hlt

theorem stay_first (hok : cfg.Ok) {db : DB} (h : PInv cfg db.rows) {x t : Row} (hx : x ∈ db.rows) (ht : t ∈ db.rows)
    (hs : sameNode x (firstSibling cfg db t) = true) :
    (PF cfg db.rows).move x.pk (par cfg db.rows t) .first = PF cfg db.rows ∧ par cfg db.rows x = par cfg db.rows t := by
  obtain ⟨first, e, h1, h2, h3⟩ := firstSibling_spec hok h ht
  rw [e, sameNode_iff] at hs
  have := h.inv.pk_inj hx h1 hs
  subst this
  have hpar : par cfg db.rows x = par cfg db.rows t := by simp only [par, parOf]; rw [h2]
  refine ⟨?_, hpar⟩
  rw [← hpar]
  refine Inv.stay hok h hx ?_
  rintro r ⟨hr, hne⟩ hp
  exact h3 r hr (by rw [hp, h2]) hne

theorem stay_last (hok : cfg.Ok) {db : DB} (h : PInv cfg db.rows) {x t : Row} (hx : x ∈ db.rows) (ht : t ∈ db.rows)
    (hs : sameNode x (lastSibling cfg db t) = true) :
    (PF cfg db.rows).move x.pk (par cfg db.rows t) .last = PF cfg db.rows ∧ par cfg db.rows x = par cfg db.rows t := by
  obtain ⟨last, e, h1, h2, h3⟩ := lastSibling_spec hok h ht
  rw [e, sameNode_iff] at hs
  have := h.inv.pk_inj hx h1 hs
  subst this
  have hpar : par cfg db.rows x = par cfg db.rows t := by simp only [par, parOf]; rw [h2]
  refine ⟨?_, hpar⟩
  rw [← hpar]
  refine Inv.stay hok h hx ?_
  rintro r ⟨hr, hne⟩ hp
  exact h3 r hr (by rw [hp, h2]) hne

theorem siblings_self (hok : cfg.Ok) {db : DB} (h : PInv cfg db.rows) {t : Row} (ht : t ∈ db.rows) :
    t ∈ siblings cfg db t := (mem_siblings h hok ht).2 ⟨ht, rfl⟩

theorem plt_of_eq_of_lt {a b c : List Nat} (e : a = b) (h : b < c) : a < c := e ▸ h

theorem same_depth (hok : cfg.Ok) {db : DB} (h : PInv cfg db.rows) {x t : Row} (ht : t ∈ db.rows) (hx : x ∈ db.rows)
    (hp : pp cfg.steplen x.path = pp cfg.steplen t.path) : t.depth = x.depth := by
  have h1 := depth_mul h ht
  have h2 := depth_mul h hx
  rw [hp, ← h1] at h2
  exact (Nat.eq_of_mul_eq_mul_right hok.step h2).symm

/-- **Moves to the position of a sibling** (the target may come from a child position). -/
theorem moveTo_sib (hok : cfg.Ok) {db : DB} (h : Inv cfg db.rows) {x target target' : Row} (hx : x ∈ db.rows)
    (ht' : target'.pk = target.pk) {t : Row} (ht : t ∈ db.rows) (hd : ¬ t.isDescendantOf x = true) {pos : Pos}
    {s : Slot} (hs : sibSlot t.pk pos = some s) (hroom : MoveRoom cfg db.rows x t pos)
    {sibs0 : List Row} :
    MoveOut cfg db x target (pp cfg.steplen t.path) ((PF cfg db.rows).sibMove x.pk (par cfg db.rows t) t.pk pos)
      (moveTo cfg db x target target' ⟨t, t.depth, sibs0, none, pos⟩) := by
  have hp := h.toPInv
  have hPx := pp_not_desc hok hp hx ht hd
  have hdm := depth_mul hp ht
  by_cases hn : moveNoop cfg db x ⟨t, t.depth, sibs0, none, pos⟩ = true
  · -- nothing to do
    have := moveTo_noop h (target := target) hx ht' hn (pp cfg.steplen t.path)
    rw [moveNoop_iff] at hn
    have hF : (PF cfg db.rows).sibMove x.pk (par cfg db.rows t) t.pk pos = PF cfg db.rows := by
      rcases hn with ⟨_, ⟨rfl, hs⟩ | ⟨rfl, hs⟩⟩ | ⟨he, rfl | ⟨rfl | rfl, hs⟩⟩
      · exact (stay_first hok hp hx ht hs).1
      · exact (stay_last hok hp hx ht hs).1
      · simp [Forest.sibMove, he]
      · simp [Forest.sibMove, he]
      · have := hp.inv.pk_inj hx ht he
        subst this
        exact (stay_last hok hp hx ht hs).1
    rw [hF]; exact this
  · by_cases hl : IsLastCase cfg db pos t
    · -- the last position
      have hne : t.pk ≠ x.pk ∨ s = .last := by
        rcases hl with rfl | ⟨rfl, hlast⟩
        · right; simp only [sibSlot, Option.some.injEq] at hs; exact hs.symm
        · left
          intro e
          exact hn (moveNoop_iff.2 (Or.inr ⟨e.symm, Or.inr ⟨Or.inl rfl, hlast⟩⟩))
      have := moveTo_place hok h hx ht' (v := ⟨t, t.depth, sibs0, none, pos⟩) (target := target) ht hn
        (movePlace_last hok hp hx ht hd hl none t.depth sibs0 hs hne)
      have hF : (PF cfg db.rows).sibMove x.pk (par cfg db.rows t) t.pk pos =
          (PF cfg db.rows).move x.pk (at? db.rows (pp cfg.steplen t.path)) s := by
        rcases hl with rfl | ⟨rfl, hlast⟩
        · simp only [sibSlot, Option.some.injEq] at hs; subst hs; rfl
        · simp only [sibSlot, Option.some.injEq] at hs; subst hs
          rcases hne with hne | hne
          · simp only [Forest.sibMove, hne, if_false]; rfl
          · cases hne
      rw [hF]; exact this
    · obtain ⟨n, hn1, hnc, hte⟩ := hp.pos t ht
      have hbase : basepath cfg t.path ((t.depth : Int) - 1) = pp cfg.steplen t.path := hp.basepath hok ht
      have hlp : lastpos cfg t.path = .ok n := by rw [hte, lastpos_eq hok _ hnc]
      have hdp : destPath cfg pos t = pp cfg.steplen t.path := by
        clear hte; revert hs; cases pos <;> simp [sibSlot, destPath, isChildPos]
      have hroom' : ∀ {m sibs}, TempCase cfg x (pp cfg.steplen t.path) m sibs → LeftOf cfg db.rows x t pos →
          TempRoom cfg db.rows (pp cfg.steplen t.path) := by
        intro m sibs hc hlt
        rw [← hdp]
        exact hroom (hc.1.trans hdp.symm) hlt
      -- membership of the moved node in the siblings that stay on the right
      have hat : ∀ {m : Nat} {sibs : List Row} {K : Nat → Prop} {s : Slot} {p : Row → Bool},
          Place cfg db.rows (pp cfg.steplen t.path) m sibs K s → sibs = (siblings cfg db t).filter p →
          (∀ r ∈ db.rows, pp cfg.steplen r.path = pp cfg.steplen t.path → r.path = pp cfg.steplen t.path ++ stp cfg m → p r = true) →
          x.path = pp cfg.steplen t.path ++ stp cfg m → x ∈ sibs := by
        intro m sibs K s p hpl e hpx hxe
        rw [e, List.mem_filter, mem_siblings hp hok ht]
        have hpp : pp cfg.steplen x.path = pp cfg.steplen t.path := by rw [hxe, pp_step hok _ hpl.cap]
        exact ⟨⟨hx, hpp⟩, hpx x hx hpp hxe⟩
      cases pos with
      | firstSibling =>
        simp only [sibSlot, Option.some.injEq] at hs; subst hs
        have hpl := place_first (K := (· ≠ x.pk)) hok hp ht
        refine moveTo_place hok h hx ht' (s := .first) ht hn ?_
        simp only
        rw [reorder_none hl]
        simp only [placeSiblings, hlp]
        exact movePlace_rest hok hp hx hbase hpl hdm (fun _ => ⟨ht, rfl⟩)
          (fun e => absurd (siblings_self hok hp ht) (by rw [e]; simp))
          (fun hxe => (mem_siblings hp hok ht).2 ⟨hx, by rw [hxe, pp_step hok _ hpl.cap]⟩)
          (fun hc => hroom' hc (by
            obtain ⟨first, e, h1, h2, h3⟩ := firstSibling_spec hok hp ht
            refine ⟨first, h1, h2.trans hdp.symm, h3 x hx hc.1 ?_⟩
            rintro rfl
            refine hn (moveNoop_iff.2 (Or.inl ⟨?_, Or.inl ⟨rfl, by rw [e, sameNode_iff]⟩⟩))
            exact same_depth hok hp ht hx hc.1)) hPx
      | left =>
        simp only [sibSlot, Option.some.injEq] at hs; subst hs
        have hne : t.pk ≠ x.pk := by
          intro e
          exact hn (moveNoop_iff.2 (Or.inr ⟨e.symm, Or.inl rfl⟩))
        have hpl := place_left (K := (· ≠ x.pk)) hok hp ht hne hn1 hnc hte
        have := moveTo_place hok h hx ht' (v := ⟨t, t.depth, sibs0, none, .left⟩) (target := target) ht hn (P := pp cfg.steplen t.path)
          (s := .before t.pk) (by
            simp only
            rw [reorder_none hl]
            simp only [placeSiblings, hlp]
            exact movePlace_rest hok hp hx hbase hpl hdm (fun _ => ⟨ht, rfl⟩)
              (fun e => by
                have : t ∈ (siblings cfg db t).filter (fun r => !decide (r.path < t.path)) := by
                  rw [List.mem_filter]; exact ⟨siblings_self hok hp ht, by simp⟩
                rw [e] at this; simp at this)
              (hat hpl rfl (by
                intro r _ _ hr
                rw [← hte] at hr
                rw [hr]; simp)) (fun hc => hroom' hc (plt_of_eq_of_lt hte hc.2.2)) hPx)
        simp only [Forest.sibMove, hne, if_false]
        exact this
      | right =>
        simp only [sibSlot, Option.some.injEq] at hs; subst hs
        have hcap : n + 1 < cfg.cap := right_room hok hp ht hl hnc hte
        have hlast : ∃ r, r ∈ (siblings cfg db t).filter (fun r => decide (t.path < r.path)) := by
          obtain ⟨last, e2, hlm, hlp2, hmax⟩ := lastSibling_spec hok hp ht
          have hne : t ≠ last := by
            rintro rfl
            exact hl (Or.inr ⟨rfl, by rw [e2, sameNode_iff]⟩)
          exact ⟨last, by
            rw [List.mem_filter, mem_siblings hp hok ht]
            exact ⟨⟨hlm, hlp2⟩, by simpa using hmax t ht rfl hne⟩⟩
        have hpx : ∀ r ∈ db.rows, pp cfg.steplen r.path = pp cfg.steplen t.path →
            r.path = pp cfg.steplen t.path ++ stp cfg (n + 1) → decide (t.path < r.path) = true := by
          intro r _ _ hr
          rw [hr, decide_eq_true_eq]
          conv => lhs; rw [hte]
          rw [plt_append_left, stp_lt_iff hok hnc hcap]; omega
        have hlt : ∀ {sibs}, TempCase cfg x (pp cfg.steplen t.path) (n + 1) sibs → t.path < x.path := by
          intro sibs hc
          refine plt_trans ?_ hc.2.2
          conv => lhs; rw [hte]
          rw [plt_append_left, stp_lt_iff hok hnc hcap]; omega
        have hempty : ∀ {P}, (siblings cfg db t).filter (fun r => decide (t.path < r.path)) = [] →
            pp cfg.steplen x.path ≠ P := by
          intro P e
          obtain ⟨r, hr⟩ := hlast
          rw [e] at hr; simp at hr
        by_cases hne : t.pk = x.pk
        · -- to the right of itself
          have := hp.inv.pk_inj ht hx hne
          subst this
          obtain ⟨next, hpl, hstay⟩ := place_self hok hp ht hl hcap hte
          have := moveTo_place hok h hx ht' (v := ⟨t, t.depth, sibs0, none, .right⟩) (target := target) ht hn (P := pp cfg.steplen t.path)
            (s := .before next) (by
              simp only
              rw [reorder_none hl]
              simp only [placeSiblings, hlp]
              exact movePlace_rest (m := n + 1) hok hp hx hbase hpl hdm (fun _ => ⟨ht, rfl⟩) hempty
                (hat hpl rfl hpx) (fun hc => hroom' hc (hlt hc)) hPx)
          rw [par_pp, Inv.stay hok hp ht hstay] at this
          simp only [Forest.sibMove, if_true]
          exact this
        · have hpl := place_right (K := (· ≠ x.pk)) hok hp ht hne hcap hte
          have := moveTo_place hok h hx ht' (v := ⟨t, t.depth, sibs0, none, .right⟩) (target := target) ht hn (P := pp cfg.steplen t.path)
            (s := .after t.pk) (by
              simp only
              rw [reorder_none hl]
              simp only [placeSiblings, hlp]
              exact movePlace_rest (m := n + 1) hok hp hx hbase hpl hdm (fun _ => ⟨ht, rfl⟩) hempty
                (hat hpl rfl hpx) (fun hc => hroom' hc (hlt hc)) hPx)
          simp only [Forest.sibMove, hne, if_false]
          exact this
      | lastSibling => exact absurd (Or.inl rfl) hl
      | sortedSibling => simp [sibSlot] at hs
      | firstChild => simp [sibSlot] at hs
      | lastChild => simp [sibSlot] at hs
      | sortedChild => simp [sibSlot] at hs
      | other => simp [sibSlot] at hs

/-- **Moves below a leaf.** -/
theorem moveTo_leaf (hok : cfg.Ok) {db : DB} (h : Inv cfg db.rows) {x target target' : Row} (hx : x ∈ db.rows)
    (ht' : target'.pk = target.pk) {t : Row} (ht : t ∈ db.rows) (hd : ¬ t.isDescendantOf x = true) (hne : t.pk ≠ x.pk)
    (hleaf : t.isLeaf = true) {s : Slot} (hs : s = .first ∨ s = .last) :
    MoveOut cfg db x target t.path ((PF cfg db.rows).move x.pk (some t.pk) s)
      (moveTo cfg db x target target' ⟨t, t.depth + 1, [], some 1, .firstSibling⟩) := by
  have hp := h.toPInv
  have hcap := cap_gt_one hok
  have hPx : ¬ x.path <+: t.path := by
    intro hpre
    exact hd ((isDescendantOf_iff hp ht hx).2 ⟨hpre, fun e => hne (by rw [e])⟩)
  have hno := fun r hr => leaf_no_child h ht hleaf (r := r) hr
  have hn : ¬ moveNoop cfg db x ⟨t, t.depth + 1, [], some 1, .firstSibling⟩ = true := by
    rw [moveNoop_iff]
    rintro (⟨hd2, ⟨_, hs2⟩ | ⟨hc, _⟩⟩ | ⟨he, _⟩)
    · obtain ⟨first, e, h1, h2, h3⟩ := firstSibling_spec hok hp ht
      rw [e, sameNode_iff] at hs2
      have := hp.inv.pk_inj hx h1 hs2
      subst this
      have e1 := depth_mul hp hx
      have e2 := depth_mul hp ht
      rw [h2] at e1
      simp only at hd2
      rw [← hd2] at e1
      rw [Nat.add_mul] at e1
      have := hok.step
      omega
    · cases hc
    · exact hne he.symm
  have hpl : Place cfg db.rows t.path 1 [] (· ≠ x.pk) s := by
    refine ⟨Or.inr ⟨t, ht, rfl⟩, le_rfl, hcap, List.Pairwise.nil, by simp, ?_, ?_⟩
    · intro r hr hpr; exact absurd hpr (hno r hr)
    · rcases hs with rfl | rfl
      · intro r hr hpr
        rw [pp_step hok _ hcap] at hpr
        exact absurd hpr (hno r hr.1)
      · intro r hr hpr
        rw [pp_step hok _ hcap] at hpr
        exact absurd hpr (hno r hr.1)
  have hl : ¬ IsLastCase cfg db .firstSibling t := by
    rintro (e | ⟨e, _⟩) <;> cases e
  have hbase : basepath cfg t.path (((t.depth + 1 : Nat) : Int) - 1) = t.path := by
    rw [show (((t.depth + 1 : Nat) : Int) - 1) = (t.depth : Int) by omega, basepath_nat, ← hp.depth t ht,
      List.take_length]
  have := moveTo_place hok h hx ht' (v := ⟨t, t.depth + 1, [], some 1, .firstSibling⟩) (target := target) ht hn
    (P := t.path) (s := s) (by
      simp only
      rw [reorder_some hl]
      exact movePlace_rest (m := 1) hok hp hx hbase hpl (by rw [Nat.add_mul, Nat.one_mul, hp.depth t ht])
        (fun e => absurd rfl e) (fun _ => hno x hx)
        (fun hxe => absurd (by rw [hxe, pp_step hok _ hcap]) (hno x hx)) (fun hc => absurd rfl hc.2.1) hPx)
  rw [at?_row hp ht] at this
  exact this

/-! ### The whole of `move` -/

/-- the move is refused: the destination is below the node -/
def Refused (node target : Row) (pos : Pos) : Prop :=
  target.isDescendantOf node = true ∨ (isChildPos pos = true ∧ target.pk = node.pk)

/-- the last child of a node is below `x` only if the node is `x` or below it -/
theorem child_desc (hok : cfg.Ok) (h : PInv cfg rows) {x t c : Row} (hx : x ∈ rows) (ht : t ∈ rows) (hc : c ∈ rows)
    (hp : pp cfg.steplen c.path = t.path) : c.isDescendantOf x = true ↔ t = x ∨ t.isDescendantOf x = true := by
  rw [isDescendantOf_iff h hc hx, isDescendantOf_iff h ht hx]
  have hcl := (h.inv.len c hc).2
  have hstep := hok.step
  constructor
  · rintro ⟨hpre, hne⟩
    by_cases he : t = x
    · exact Or.inl he
    · refine Or.inr ⟨?_, he⟩
      rw [← hp]
      obtain ⟨u, hu⟩ := hpre
      have hul := branch_long h.inv hx hc hne hu.symm
      rw [← hu, pp_append hul]
      exact List.prefix_append _ _
  · intro hor
    have hpre : x.path <+: t.path := by
      rcases hor with rfl | ⟨h1, _⟩
      · exact List.prefix_refl _
      · exact h1
    refine ⟨hpre.trans (by rw [← hp]; exact pp_prefix _), ?_⟩
    rintro rfl
    have := hpre.length_le
    rw [← hp, pp_length] at this
    omega

/-- what the variables of `move` are once the move is allowed -/
theorem moveToChildVars_spec (hok : cfg.Ok) {db : DB} (h : Inv cfg db.rows) {x t : Row} (hx : x ∈ db.rows)
    (ht : t ∈ db.rows) (pos : Pos) :
    (Refused x t pos ∧ (moveToChildVars cfg db x t pos = .error .invalidMoveToDescendant ∨
      ∃ v, moveToChildVars cfg db x t pos = .ok v ∧ v.target.isDescendantOf x = true)) ∨
    (¬ Refused x t pos ∧ isChildPos pos = false ∧
      moveToChildVars cfg db x t pos = .ok ⟨t, t.depth, [], none, pos⟩ ∧ ¬ t.isDescendantOf x = true) ∨
    (¬ Refused x t pos ∧ isChildPos pos = true ∧ t.isLeaf = true ∧ t.pk ≠ x.pk ∧
      moveToChildVars cfg db x t pos = .ok ⟨t, t.depth + 1, [], some 1, .firstSibling⟩ ∧ ¬ t.isDescendantOf x = true) ∨
    (¬ Refused x t pos ∧ isChildPos pos = true ∧ ∃ last, last ∈ db.rows ∧ pp cfg.steplen last.path = t.path ∧
      moveToChildVars cfg db x t pos = .ok ⟨last, last.depth, [], none, childToSib pos⟩ ∧ ¬ last.isDescendantOf x = true) := by
  unfold moveToChildVars
  cases hcp : isChildPos pos with
  | false =>
    simp only [Bool.false_eq_true, if_false]
    by_cases hd : t.isDescendantOf x = true
    · exact Or.inl ⟨Or.inl hd, Or.inr ⟨_, rfl, hd⟩⟩
    · refine Or.inr (Or.inl ⟨?_, trivial, trivial, hd⟩)
      rintro (h1 | ⟨h1, _⟩)
      · exact hd h1
      · rw [hcp] at h1; cases h1
  | true =>
    simp only [if_true]
    by_cases he : t.pk = x.pk
    · rw [if_pos he]
      exact Or.inl ⟨Or.inr ⟨hcp, he⟩, Or.inl rfl⟩
    · rw [if_neg he]
      have href : Refused x t pos ↔ t.isDescendantOf x = true := by
        constructor
        · rintro (h1 | ⟨_, h1⟩)
          · exact h1
          · exact absurd h1 he
        · exact Or.inl
      rw [href]
      cases hleaf : t.isLeaf with
      | true =>
        simp only [if_true]
        by_cases hd : t.isDescendantOf x = true
        · exact Or.inl ⟨hd, Or.inr ⟨_, rfl, hd⟩⟩
        · exact Or.inr (Or.inr (Or.inl ⟨hd, trivial, trivial, he, trivial, hd⟩))
      | false =>
        simp only [Bool.false_eq_true, if_false]
        obtain ⟨last, e, hlm, hlp, _⟩ := lastChild_none hok h ht hleaf
        have hdep : last.depth = t.depth + 1 := by
          rw [depth_eq_iff h.toPInv hok hlm, Nat.add_mul, Nat.one_mul, ← h.depth t ht, ← hlp, pp_length]
          have := (h.inv.len last hlm).2
          omega
        have hiff := child_desc hok h.toPInv hx ht hlm hlp
        have hne : t ≠ x := fun e => he (by rw [e])
        by_cases hd : t.isDescendantOf x = true
        · exact Or.inl ⟨hd, Or.inr ⟨_, by simp only [e]; rfl, hiff.2 (Or.inr hd)⟩⟩
        · refine Or.inr (Or.inr (Or.inr ⟨hd, trivial, last, hlm, hlp, by simp only [e, hdep], ?_⟩))
          rw [hiff]
          rintro (h1 | h1)
          · exact hne h1
          · exact hd h1

/-- the positions that are not sorted -/
def isPlainPos (pos : Pos) : Bool :=
  pos == .firstSibling || pos == .left || pos == .right || pos == .lastSibling || pos == .firstChild || pos == .lastChild

theorem plain_of_prep {posArg : Option Pos} {pos : Pos} (hprep : preparePosForMove false posArg = .ok pos) :
    isPlainPos pos = true := by
  have key : ∀ q : Option Pos, preparePosForMove false q = .ok pos → isPlainPos pos = true := by
    intro q hq
    unfold preparePosForMove preparePosVar at hq
    rcases q with _ | q
    · revert hq
      simp [validPosForMove, validPosForSortedMove, validPosForAddSibling, validPosForSortedAddSibling]
      rintro rfl; rfl
    · revert hq
      cases q <;> simp [validPosForMove, validPosForSortedMove, validPosForAddSibling, validPosForSortedAddSibling]
      all_goals rintro rfl; rfl
  exact key _ hprep

/-- **`move` without `node_order_by`.** -/
theorem move_unsorted (hok : cfg.Ok) {db : DB} (h : Inv cfg db.rows) (ho : cfg.ordered = false) {x t : Row}
    (hx : x ∈ db.rows) (ht : t ∈ db.rows) {posArg : Option Pos} {pos : Pos}
    (hprep : preparePosForMove false posArg = .ok pos)
    (hroom : MoveRoom cfg db.rows x t pos) :
    (Refused x t pos ∧ move cfg db x t posArg = .error .invalidMoveToDescendant) ∨
    (¬ Refused x t pos ∧ MoveOut cfg db x t (destPath cfg pos t)
      ((PF cfg db.rows).moveAsked x.pk (par cfg db.rows t) t.pk pos) (move cfg db x t posArg)) := by
  have hplain := plain_of_prep hprep
  unfold move
  rw [ho, hprep]
  simp only
  rcases moveToChildVars_spec hok h hx ht pos with ⟨hr, e | ⟨v, e, hd⟩⟩ | ⟨hr, hc, e, hd⟩ |
    ⟨hr, hc, hleaf, hne, e, hd⟩ | ⟨hr, hc, last, hlm, hlp, e, hd⟩
  · left; exact ⟨hr, by simp only [e]⟩
  · left; exact ⟨hr, by simp only [e, hd, if_true]⟩
  · right
    refine ⟨hr, ?_⟩
    simp only [e, hd, if_false, Bool.false_eq_true]
    have hs : ∃ s, sibSlot t.pk pos = some s := by
      cases pos <;> simp_all [isPlainPos, isChildPos, sibSlot]
    obtain ⟨s, hs⟩ := hs
    have hns : pos ≠ .sortedSibling := by rintro rfl; simp [sibSlot] at hs
    simp only [moveSorted, hns, if_false]
    have hdp : destPath cfg pos t = pp cfg.steplen t.path := by simp [destPath, hc]
    rw [hdp]
    have hF : (PF cfg db.rows).moveAsked x.pk (par cfg db.rows t) t.pk pos =
        (PF cfg db.rows).sibMove x.pk (par cfg db.rows t) t.pk pos := by
      cases pos <;> simp_all [isChildPos, Forest.moveAsked]
    rw [hF]
    exact moveTo_sib hok h hx (by simp [hc]) ht hd hs hroom
  · right
    refine ⟨hr, ?_⟩
    simp only [e, hd, if_false, Bool.false_eq_true]
    have hdp : destPath cfg pos t = t.path := by simp [destPath, hc]
    rw [hdp]
    simp only [moveSorted, reduceCtorEq, if_false]
    have hF : ∃ s, (s = .first ∨ s = .last) ∧ (PF cfg db.rows).moveAsked x.pk (par cfg db.rows t) t.pk pos =
        (PF cfg db.rows).move x.pk (some t.pk) s := by
      cases pos <;> simp_all [isChildPos, isPlainPos, Forest.moveAsked]
    obtain ⟨s, hs, hF⟩ := hF
    rw [hF]
    exact moveTo_leaf hok h hx (by simp [hc]) ht hd hne hleaf hs
  · right
    refine ⟨hr, ?_⟩
    simp only [e, hd, if_false, Bool.false_eq_true]
    have hdp : destPath cfg pos t = pp cfg.steplen last.path := by simp [destPath, hc, hlp]
    have hroom' : ∀ q, isChildPos q = false → (LeftOf cfg db.rows x last q → LeftOf cfg db.rows x t pos) → MoveRoom cfg db.rows x last q := by
      intro q hq hl
      have hdq : destPath cfg q last = destPath cfg pos t := by rw [hdp]; simp [destPath, hq]
      unfold MoveRoom
      rw [hdq]
      exact fun h1 h2 => hroom h1 (hl h2)
    rw [hdp]
    have hpar : par cfg db.rows last = some t.pk := (par_eq_some_iff h.inv ht).2 hlp
    have hcase : (pos = .firstChild ∨ pos = .lastChild) := by
      cases pos <;> simp_all [isChildPos, isPlainPos]
    rcases hcase with rfl | rfl
    · simp only [moveSorted, childToSib, reduceCtorEq, if_false]
      have := moveTo_sib hok h hx (target := t)
        (target' := if isChildPos .firstChild = true then { t with numchild := t.numchild + 1 } else t)
        (by simp [hc]) hlm hd (pos := .firstSibling) rfl (hroom' _ rfl (by
          rintro ⟨z, h1, h2, h3⟩
          exact ⟨z, h1, by rw [hdp, h2]; rfl, h3⟩)) (sibs0 := [])
      rw [hpar] at this
      exact this
    · simp only [moveSorted, childToSib, reduceCtorEq, if_false]
      have := moveTo_sib hok h hx (target := t)
        (target' := if isChildPos .lastChild = true then { t with numchild := t.numchild + 1 } else t)
        (by simp [hc]) hlm hd (pos := .lastSibling) rfl (hroom' _ rfl (fun hl => hl.elim)) (sibs0 := [])
      rw [hpar] at this
      exact this

/-! ### Sorted moves -/

/-- the variables after `moveSorted`, and the outcome -/
theorem moveSorted_out (hok : cfg.Ok) {db : DB} (h : Inv cfg db.rows) {x target target' : Row} (hx : x ∈ db.rows)
    (ht' : target'.pk = target.pk) {t : Row} (ht : t ∈ db.rows) (hd : ¬ t.isDescendantOf x = true)
    (ho : cfg.ordered = true) (hv : NonNull cfg.orderBy x.vals)
    (hs : SortedSibs cfg db.rows (pp cfg.steplen t.path) (· ≠ x.pk))
    (hroom : MoveRoom cfg db.rows x t .sortedSibling) :
    ∃ s, SortedSlot cfg db.rows (pp cfg.steplen t.path) (· ≠ x.pk) x.vals s ∧
      MoveOut cfg db x target (pp cfg.steplen t.path) ((PF cfg db.rows).move x.pk (par cfg db.rows t) s)
        (match moveSorted cfg db x ⟨t, t.depth, [], none, .sortedSibling⟩ with
        | .error e => .error e
        | .ok none => .ok ⟨db, x, target'⟩
        | .ok (some v) => moveTo cfg db x target target' v) := by
  have hp := h.toPInv
  have hPx := pp_not_desc hok hp hx ht hd
  have hdm := depth_mul hp ht
  have hKv : ∀ r ∈ db.rows, ¬ r.pk ≠ x.pk → r.vals = x.vals := by
    intro r hr hc
    rw [hp.inv.pk_inj hr hx (not_not.1 hc)]
  unfold moveSorted
  simp only [if_true]
  cases hf : (sortedPosQueryset cfg.orderBy Row.vals (siblings cfg db t) x.vals).head? with
  | none =>
    simp only
    have hempty : sortedPosQueryset cfg.orderBy Row.vals (siblings cfg db t) x.vals = [] := by
      simpa using hf
    refine ⟨.last, ?_, ?_⟩
    · intro r hr hpr _ hk
      have := (mem_sortedPos (ordered_ne ho) hv r).2 ⟨(mem_siblings hp hok ht).2 ⟨hr, hpr⟩, hk⟩
      rw [hempty] at this
      simp at this
    · exact moveTo_sib hok h hx ht' ht hd (pos := .lastSibling) rfl (fun _ hl => hl.elim)
  | some first =>
    simp only
    obtain ⟨hf1, hf2, hfK, hf3, hf4⟩ := after_suffix hok hp ht ho hv hKv hs hf
    obtain ⟨n, hn1, hn, hfe⟩ := hp.sib_pos hf1 hf2
    have hlp : lastpos cfg first.path = .ok n := by rw [hfe, lastpos_eq hok _ hn]
    rw [hlp]
    simp only [hp.basepath hok hx, hp.basepath hok hf1]
    have hslot : SortedSlot cfg db.rows (pp cfg.steplen t.path) (· ≠ x.pk) x.vals (.before first.pk) :=
      ⟨first, hf1, hf2, hfK, rfl, hf4⟩
    refine ⟨.before first.pk, hslot, ?_⟩
    have hgo : MoveOut cfg db x target (pp cfg.steplen t.path)
        ((PF cfg db.rows).move x.pk (par cfg db.rows t) (.before first.pk))
        (moveTo cfg db x target target' ⟨t, t.depth,
          sortedPosQueryset cfg.orderBy Row.vals (siblings cfg db t) x.vals, some (n : Int), .sortedSibling⟩) := by
      refine moveTo_place hok h hx ht' ht ?_ ?_
      · rw [moveNoop_iff]
        simp
      · have hl : ¬ IsLastCase cfg db .sortedSibling t := by
          rintro (e | ⟨e, _⟩) <;> cases e
        simp only
        rw [reorder_some hl]
        have hfm := (List.mem_of_mem_head? (Option.mem_def.2 hf))
        have hplace := place_sorted (K := (· ≠ x.pk)) hok hp ht
          (sortedPos_sublist cfg.orderBy Row.vals (siblings cfg db t) x.vals) hf hfK (by
            intro r hr hK hlt
            obtain ⟨h1, h2⟩ := (mem_siblings hp hok ht).1 hr
            exact (mem_sortedPos (ordered_ne ho) hv r).2 ⟨hr, (hf4 r h1 h2 hK).2 hlt⟩) hn1 hn hfe
        refine movePlace_rest hok hp hx (hp.basepath hok ht) hplace hdm (fun _ => ⟨ht, rfl⟩) ?_ ?_
          (fun hc => hroom hc.1 ⟨first, hf1, hf2, by rw [hfe]; exact hc.2.2,
            ((mem_sortedPos (ordered_ne ho) hv first).1 hfm).2⟩) hPx
        · intro e
          rw [e] at hfm; simp at hfm
        · intro hxe
          rw [← hfe] at hxe
          exact absurd (by rw [hp.inv.path_inj hx hf1 hxe]) hfK
    by_cases hpx : pp cfg.steplen x.path = pp cfg.steplen first.path
    · rw [if_pos hpx]
      obtain ⟨nx, hnx1, hnx, hxe⟩ := hp.sib_pos hx (hpx.trans hf2)
      have hlpx : lastpos cfg x.path = .ok nx := by rw [hxe, lastpos_eq hok _ hnx]
      simp only [hlpx]
      by_cases hadj : (nx : Int) = (n : Int) - 1
      · rw [if_pos hadj]
        simp only
        left
        refine ⟨_, rfl, h, ?_, rfl, ⟨hx, rfl⟩, ht', rfl⟩
        have hpar : par cfg db.rows t = par cfg db.rows x := by
          simp only [par, parOf]; rw [hpx, hf2]
        rw [hpar]
        refine (Inv.stay hok hp hx ?_).symm
        refine ⟨first, ⟨hf1, fun e => hfK (by rw [e])⟩, rfl, hpx.symm, ?_, ?_⟩
        · rw [hxe, hfe, plt_append_left, stp_lt_iff hok hnx hn]; omega
        · rintro r ⟨hr, hrx⟩ hpr hlt
          obtain ⟨k, _, hk, hre⟩ := hp.sib_pos hr (hpr.trans (hpx.trans hf2))
          have hkx : k ≠ nx := by
            rintro rfl
            exact hrx (hp.inv.path_inj hr hx (by rw [hre, hxe]))
          rw [hre, hfe, plt_append_left, stp_lt_iff hok hk hn] at hlt
          rw [hre, hxe, plt_append_left, stp_lt_iff hok hk hnx]
          omega
      · rw [if_neg hadj]
        exact hgo
    · rw [if_neg hpx]
      exact hgo

theorem sorted_of_prep {posArg : Option Pos} {pos : Pos} (hprep : preparePosForMove true posArg = .ok pos) :
    pos = .sortedSibling ∨ pos = .sortedChild := by
  unfold preparePosForMove preparePosVar at hprep
  rcases posArg with _ | q
  · revert hprep
    simp [validPosForMove, validPosForSortedMove, validPosForAddSibling, validPosForSortedAddSibling]
    rintro rfl; simp
  · revert hprep
    cases q <;> simp [validPosForMove, validPosForSortedMove, validPosForAddSibling, validPosForSortedAddSibling]
    all_goals rintro rfl; simp

/-- the new parent asked for -/
def destPar (p : Option Nat) (t : Nat) (pos : Pos) : Option Nat := if isChildPos pos = true then some t else p

/-- **`move` with `node_order_by`.** -/
theorem move_sorted (hok : cfg.Ok) {db : DB} (h : Inv cfg db.rows) (ho : cfg.ordered = true) {x t : Row}
    (hx : x ∈ db.rows) (ht : t ∈ db.rows) {posArg : Option Pos} {pos : Pos}
    (hprep : preparePosForMove true posArg = .ok pos) (hv : NonNull cfg.orderBy x.vals)
    (hs : SortedSibs cfg db.rows (destPath cfg pos t) (· ≠ x.pk))
    (hroom : MoveRoom cfg db.rows x t pos) :
    (Refused x t pos ∧ move cfg db x t posArg = .error .invalidMoveToDescendant) ∨
    (¬ Refused x t pos ∧ ∃ s, SortedSlot cfg db.rows (destPath cfg pos t) (· ≠ x.pk) x.vals s ∧
      MoveOut cfg db x t (destPath cfg pos t)
        ((PF cfg db.rows).move x.pk (destPar (par cfg db.rows t) t.pk pos) s) (move cfg db x t posArg)) := by
  have hpos := sorted_of_prep hprep
  unfold move
  rw [ho, hprep]
  simp only
  rcases moveToChildVars_spec hok h hx ht pos with ⟨hr, e | ⟨v, e, hd⟩⟩ | ⟨hr, hc, e, hd⟩ |
    ⟨hr, hc, hleaf, hne, e, hd⟩ | ⟨hr, hc, last, hlm, hlp, e, hd⟩
  · left; exact ⟨hr, by simp only [e]⟩
  · left; exact ⟨hr, by simp only [e, hd, if_true]⟩
  · right
    refine ⟨hr, ?_⟩
    have hpos : pos = .sortedSibling := by
      rcases hpos with rfl | rfl
      · rfl
      · cases hc
    subst hpos
    simp only [e, hd, if_false, Bool.false_eq_true]
    exact moveSorted_out hok h hx rfl ht hd ho hv hs hroom
  · right
    refine ⟨hr, .last, ?_, ?_⟩
    · have hdp : destPath cfg pos t = t.path := by simp [destPath, hc]
      rw [hdp]
      intro r hr hp
      exact absurd hp (leaf_no_child h ht hleaf hr)
    · simp only [e, hd, if_false, Bool.false_eq_true]
      have hdp : destPath cfg pos t = t.path := by simp [destPath, hc]
      have hpr : destPar (par cfg db.rows t) t.pk pos = some t.pk := by simp [destPar, hc]
      rw [hdp, hpr]
      simp only [moveSorted, reduceCtorEq, if_false]
      exact moveTo_leaf hok h hx (by simp [hc]) ht hd hne hleaf (Or.inr rfl)
  · right
    refine ⟨hr, ?_⟩
    have hpos : pos = .sortedChild := by
      rcases hpos with rfl | rfl
      · cases hc
      · rfl
    subst hpos
    simp only [e, hd, if_false, Bool.false_eq_true]
    have hdp : destPath cfg .sortedChild t = pp cfg.steplen last.path := by simp [destPath, hc, hlp]
    have hpr : destPar (par cfg db.rows t) t.pk .sortedChild = par cfg db.rows last := by
      simp only [destPar, hc, if_true]
      exact ((par_eq_some_iff h.inv ht).2 hlp).symm
    have hroom' : MoveRoom cfg db.rows x last .sortedSibling := by
      have hdq : destPath cfg .sortedSibling last = destPath cfg .sortedChild t := by rw [hdp]; rfl
      unfold MoveRoom
      rw [hdq]
      exact fun h1 h2 => hroom h1 (by
        obtain ⟨z, h3, h4, h5⟩ := h2
        exact ⟨z, h3, by rw [h4, hdq], h5⟩)
    rw [hdp] at hs ⊢
    rw [hpr]
    exact moveSorted_out hok h hx (by simp [hc]) hlm hd ho hv hs hroom'

end MP
end Verif
