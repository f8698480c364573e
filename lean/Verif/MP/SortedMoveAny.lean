/-
MP: sorted moves among siblings with any values.
-/
import Verif.MP.Move
import Verif.MP.SortedAny
import Verif.MP.Query

namespace Verif.MP

variable {cfg : Cfg}

/-- the rest of the reordering for a move, when the siblings to shift are any of the siblings from `first` on, but not `x` -/
theorem reorderRest_move_any (hok : cfg.Ok) {db : DB} (h : PInv cfg db.rows) {x : Row} (hx : x ∈ db.rows)
    {target : Row} {newdepth : Nat} (hbase : basepath cfg target.path ((newdepth : Int) - 1) = P)
    (hp : Place0 cfg db.rows P m sibs (· ≠ x.pk) s) (hd : newdepth * cfg.steplen = P.length + cfg.steplen)
    (ht : target ∈ db.rows ∧ pp cfg.steplen target.path = P)
    (hfirst : ∃ first ∈ sibs, first.path = P ++ stp cfg m) (hxs : x ∉ sibs)
    (hroom : TempCase cfg x P m sibs → TempRoom cfg db.rows P) (hPx : ¬ x.path <+: P) :
    MovePlace cfg db x P s (reorderRest cfg db m newdepth target sibs (some x.path)) ∨
    (reorderRest cfg db m newdepth target sibs (some x.path) = .error .integrity ∧
      ∃ i, ∃ a ∈ sibs, ∃ b ∈ db.rows, pp cfg.steplen b.path = P ∧ b ∉ sibs ∧ b ≠ x ∧ i + 1 < cfg.cap ∧
        a.path = P ++ stp cfg i ∧ b.path = P ++ stp cfg (i + 1)) := by
  obtain ⟨first, hfm, hfe⟩ := hfirst
  have hpos : ∀ r ∈ sibs, ∃ n, m ≤ n ∧ n < cfg.cap ∧ r.path = P ++ stp cfg n := by
    intro r hr
    obtain ⟨hr1, hr2, hr3⟩ := hp.mem r hr
    obtain ⟨n, _, hn, e⟩ := h.sib_pos hr1 hr2
    refine ⟨n, ?_, hn, e⟩
    rw [e, plt_append_left, stp_lt_iff hok hn hp.cap] at hr3
    omega
  have hdone : Collected cfg db.rows P m sibs (· ≠ x.pk) →
      MovePlace cfg db x P s (reorderRest cfg db m newdepth target sibs (some x.path)) := by
    intro hcol
    rcases reorderRest_core hok h hx hbase hp hcol hd (fun _ => ht) (fun e => by rw [e] at hfm; cases hfm)
      (fun e => absurd (h.inv.path_inj hx (hp.mem _ hfm).1 (e.trans hfe.symm) ▸ hfm) hxs) hroom hPx with
      ⟨db', f, old', e, h1, h2⟩ | ⟨e, h1⟩
    · exact Or.inl ⟨m, db', f, old', hp.cap, e, h1, h2⟩
    · exact Or.inr ⟨e, h1.lastUsed hok hp.cap⟩
  rcases collectShift_spec hok sibs m hp.cap hp.sorted hpos with ⟨k, moves, e1, e2, hk, hno, hall⟩ | ⟨e1, hfull⟩
  · by_cases hfree : ∀ r ∈ db.rows, r.pk ≠ x.pk → r.path ≠ P ++ stp cfg (m + k)
    · refine Or.inl (hdone (Or.inl ⟨k, moves, e1, e2, hk, ?_, hall⟩))
      rintro r hr (hc | hc)
      · exact hfree r hr hc
      · exact hno r hc
    · right
      push Not at hfree
      obtain ⟨b, hb, hbx, hbe⟩ := hfree
      cases k with
      | zero => exact absurd hfe (hno first hfm)
      | succ k =>
        obtain ⟨a, ha, hae⟩ := hall (m + k) (by omega) (by omega)
        rw [show m + (k + 1) = m + k + 1 by omega] at hbe hk hno
        have hbne : b ≠ x := fun e => hbx (by rw [e])
        have hane : a ≠ x := fun e => hxs (e ▸ ha)
        refine ⟨?_, m + k, a, ha, b, hb, by rw [hbe, pp_step hok _ hk], fun hba => hno b hba hbe, hbne, hk, hae, hbe⟩
        unfold reorderRest
        rw [getPath_eq hok _ _ hp.cap, hbase]
        simp only
        rcases moveToTemp_spec hok h hx hp hd (fun _ => ht) hroom hPx with ⟨hc, e0⟩ | ⟨hc, db1, f1, n, hn, e0, hfx, hmv, hlt, hroom2, hf1⟩
        · simp only [e0, e1, shiftLoop_clash hok e2 hk (hp.mem a ha).1 hae hb hbe (some x.path)]
        · obtain ⟨nx, _, hnx, hxe⟩ := h.sib_pos hx hc.1
          have hsame : ∀ r ∈ db.rows, r ≠ x → ∀ i, i < cfg.cap → r.path = P ++ stp cfg i → f1 r ∈ db1.rows ∧ (f1 r).path = P ++ stp cfg i := by
            intro r hr hrx i hi hre
            refine ⟨by rw [hmv.eq]; exact List.mem_map_of_mem hr, ?_⟩
            rw [hf1 r hr, ren_of_not_prefix, hre]
            intro hpre
            have := hpre.eq_of_length (by rw [hxe, hre, step_len hok P hnx, step_len hok P hi])
            exact hrx (h.inv.path_inj hr hx this.symm)
          obtain ⟨ha1, ha2⟩ := hsame a (hp.mem a ha).1 hane _ (by omega) hae
          obtain ⟨hb1, hb2⟩ := hsame b hb hbne _ hk hbe
          simp only [e0, e1, shiftLoop_clash hok e2 hk ha1 ha2 hb1 hb2 (some x.path)]
  · refine Or.inl (hdone (Or.inr ⟨e1, ?_⟩))
    intro n hn1 hn2
    obtain ⟨r, hr, e⟩ := hfull n hn1 hn2
    exact ⟨r, (hp.mem r hr).1, e⟩

/-- the other siblings, in order -/
def others (cfg : Cfg) (db : DB) (x t : Row) : List Row := (siblings cfg db t).filter (fun r => r.pk ≠ x.pk)

/-- room for the temporary position, when a sibling that comes after `x` stands before it -/
def AnyRoom (cfg : Cfg) (rows : List Row) (x : Row) (P : List Nat) : Prop :=
  pp cfg.steplen x.path = P → (∃ z ∈ rows, pp cfg.steplen z.path = P ∧ z.path < x.path ∧ Behind cfg.orderBy x.vals z.vals) → TempRoom cfg rows P

/-- what a sorted move below `P` gives, where `l` lists the other rows below `P` -/
def MovedAny (cfg : Cfg) (db : DB) (x target : Row) (p : Option Nat) (P : List Nat) (l : List Row) (out : Except Err MoveResult) : Prop :=
  (∃ s, HeadSlot cfg.orderBy Row.vals Row.pk l x.vals s ∧ MoveOut cfg db x target P ((PF cfg db.rows).move x.pk p s) out) ∨
  (out = .error .integrity ∧ ∃ l₁ a b l₂, l = l₁ ++ a :: b :: l₂ ∧ Behind cfg.orderBy x.vals a.vals ∧ ¬ Behind cfg.orderBy x.vals b.vals)

theorem behind_others (x t : Row) (db : DB) :
    sortedPosQueryset cfg.orderBy Row.vals (others cfg db x t) x.vals =
      (sortedPosQueryset cfg.orderBy Row.vals (siblings cfg db t) x.vals).filter (fun r => r.pk ≠ x.pk) := by
  rw [sortedPos_behind, sortedPos_behind, others, List.filter_filter, List.filter_filter]
  apply List.filter_congr
  intro r _
  rw [Bool.and_comm]

theorem moveSorted_any (hok : cfg.Ok) {db : DB} (h : Inv cfg db.rows) {x target target' : Row} (hx : x ∈ db.rows)
    (ht' : target'.pk = target.pk) {t : Row} (ht : t ∈ db.rows) (hd : ¬ t.isDescendantOf x = true)
    (hroom : AnyRoom cfg db.rows x (pp cfg.steplen t.path)) :
    MovedAny cfg db x target (par cfg db.rows t) (pp cfg.steplen t.path) (others cfg db x t)
        (match moveSorted cfg db x ⟨t, t.depth, [], none, .sortedSibling⟩ with
        | .error e => .error e
        | .ok none => .ok ⟨db, x, target'⟩
        | .ok (some v) => moveTo cfg db x target target' v) := by
  have hp := h.toPInv
  have hPx := pp_not_desc hok hp hx ht hd
  have hdm := depth_mul hp ht
  have hbo := behind_others (cfg := cfg) x t db
  unfold moveSorted
  simp only [if_true]
  cases hf : (sortedPosQueryset cfg.orderBy Row.vals (siblings cfg db t) x.vals).head? with
  | none =>
    simp only
    have hempty : sortedPosQueryset cfg.orderBy Row.vals (siblings cfg db t) x.vals = [] := by
      simpa using hf
    refine Or.inl ⟨.last, Or.inr ⟨by rw [hbo, hempty]; rfl, rfl⟩, ?_⟩
    exact moveTo_sib hok h hx ht' ht hd (pos := .lastSibling) rfl (fun _ hl => hl.elim)
  | some first =>
    simp only
    generalize hS : sortedPosQueryset cfg.orderBy Row.vals (siblings cfg db t) x.vals = S at *
    have hmS : ∀ r, r ∈ S ↔ r ∈ siblings cfg db t ∧ Behind cfg.orderBy x.vals r.vals := by
      intro r; rw [← hS]; exact mem_behind r
    have hsub : S.Sublist (siblings cfg db t) := by rw [← hS]; exact sortedPos_sublist _ _ _ _
    have hsorted := (siblings_sorted hp t).sublist hsub
    obtain ⟨hfm, hmin⟩ := head?_min hsorted hf
    obtain ⟨hf1, hf2⟩ := (mem_siblings hp hok ht).1 (hsub.subset hfm)
    obtain ⟨n, hn1, hn, hfe⟩ := hp.sib_pos hf1 hf2
    have hlp : lastpos cfg first.path = .ok n := by rw [hfe, lastpos_eq hok _ hn]
    rw [hlp]
    simp only [hp.basepath hok hx, hp.basepath hok hf1]
    have hge : ∀ r ∈ S, ¬ r.path < first.path := by
      intro r hr
      by_cases he : r = first
      · rw [he]; exact plt_irrefl _
      · exact plt_asymm (hmin r hr he)
    -- the slot
    obtain ⟨s, hs, hslot⟩ : ∃ s, HeadSlot cfg.orderBy Row.vals Row.pk (others cfg db x t) x.vals s ∧
        NSlot cfg.steplen (fun r => r ∈ db.rows ∧ r.pk ≠ x.pk) (pp cfg.steplen t.path ++ stp cfg n) s := by
      rw [← hfe]
      by_cases hfx : first = x
      · have hall : ∀ w, Behind cfg.orderBy x.vals w := fun w => behind_self (by have := ((hmS first).1 hfm).2; rwa [hfx] at this)
        have hin : ∀ r ∈ db.rows, r.pk ≠ x.pk → pp cfg.steplen r.path = pp cfg.steplen t.path → r ∈ S.filter (fun r => r.pk ≠ x.pk) := by
          intro r hr hrx hrp
          rw [List.mem_filter]
          exact ⟨(hmS r).2 ⟨(mem_siblings hp hok ht).2 ⟨hr, hrp⟩, hall _⟩, by simpa using hrx⟩
        cases hz : (S.filter (fun r => r.pk ≠ x.pk)).head? with
        | none =>
          refine ⟨.last, Or.inr ⟨by rw [hbo]; exact hz, rfl⟩, ?_⟩
          rintro r ⟨hr, hrx⟩ hrp
          have := hin r hr hrx (hrp.trans hf2)
          have he : S.filter (fun r => r.pk ≠ x.pk) = [] := by simpa using hz
          rw [he] at this
          cases this
        | some z =>
          obtain ⟨hzm, hzmin⟩ := head?_min (hsorted.sublist List.filter_sublist) hz
          obtain ⟨hz1, hz2⟩ := List.mem_filter.1 hzm
          obtain ⟨hz3, hz4⟩ := (mem_siblings hp hok ht).1 (hsub.subset hz1)
          refine ⟨.before z.pk, Or.inl ⟨z, by rw [hbo]; exact hz, rfl⟩, z, ⟨hz3, by simpa using hz2⟩, rfl, hz4.trans hf2.symm, hge z hz1, ?_⟩
          rintro r ⟨hr, hrx⟩ hrp hlt
          have := hin r hr hrx (hrp.trans hf2)
          by_cases he : r = z
          · rw [he] at hlt; exact absurd hlt (plt_irrefl _)
          · exact absurd (hzmin r this he) (plt_asymm hlt)
      · have hfx' : first.pk ≠ x.pk := fun e => hfx (hp.inv.pk_inj hf1 hx e)
        refine ⟨.before first.pk, Or.inl ⟨first, ?_, rfl⟩, first, ⟨hf1, hfx'⟩, rfl, rfl, plt_irrefl _, fun r _ _ hlt => hlt⟩
        rw [hbo]
        cases S with
        | nil => cases hf
        | cons y ys =>
          simp only [List.head?_cons, Option.some.injEq] at hf
          subst hf
          rw [List.filter_cons_of_pos (by simpa using hfx')]
          rfl
    have hplace0 : Place0 cfg db.rows (pp cfg.steplen t.path) n S (· ≠ x.pk) s := by
      refine ⟨hp.isPar ht, hn1, hn, hsorted, ?_, hslot⟩
      intro r hr
      obtain ⟨h2, h3⟩ := (mem_siblings hp hok ht).1 (hsub.subset hr)
      exact ⟨h2, h3, by rw [← hfe]; exact hge r hr⟩
    have hroom' : TempCase cfg x (pp cfg.steplen t.path) n S → TempRoom cfg db.rows (pp cfg.steplen t.path) := by
      intro hc
      exact hroom hc.1 ⟨first, hf1, hf2, by rw [hfe]; exact hc.2.2, ((hmS first).1 hfm).2⟩
    have hgo : MovedAny cfg db x target (par cfg db.rows t) (pp cfg.steplen t.path) (others cfg db x t)
        (moveTo cfg db x target target' ⟨t, t.depth, S, some (n : Int), .sortedSibling⟩) := by
      have hl : ¬ IsLastCase cfg db .sortedSibling t := by
        rintro (e | ⟨e, _⟩) <;> cases e
      have hnn : ¬ moveNoop cfg db x ⟨t, t.depth, S, some (n : Int), .sortedSibling⟩ = true := by
        rw [moveNoop_iff]
        simp
      by_cases hxs : x ∈ S
      · have hall : ∀ w, Behind cfg.orderBy x.vals w := fun w => behind_self ((hmS x).1 hxs).2
        refine Or.inl ⟨s, hs, moveTo_place hok h hx ht' ht hnn ?_⟩
        simp only
        rw [reorder_some hl]
        refine movePlace_rest hok hp hx (hp.basepath hok ht) (sibs := S) (m := n) (s := s) ⟨hplace0.isPar, hplace0.one, hplace0.cap, hplace0.sorted, hplace0.mem, ?_, hplace0.slot⟩
          hdm (fun _ => ⟨ht, rfl⟩) ?_ (fun _ => hxs) hroom' hPx
        · intro r hr hrp _ _
          exact (hmS r).2 ⟨(mem_siblings hp hok ht).2 ⟨hr, hrp⟩, hall _⟩
        · intro e
          rw [e] at hfm; cases hfm
      · rcases reorderRest_move_any hok hp hx (hp.basepath hok ht) hplace0 hdm ⟨ht, rfl⟩ ⟨first, hfm, hfe⟩ hxs hroom' hPx with
          hmp | ⟨e, i, a, ha, b, hb, hbp, hbs, hbx, hi, hae, hbe⟩
        · refine Or.inl ⟨s, hs, moveTo_place hok h hx ht' ht hnn ?_⟩
          simp only
          rw [reorder_some hl]
          exact hmp
        · right
          obtain ⟨ha1, ha2⟩ := (hmS a).1 ha
          have hbm := (mem_siblings hp hok ht).2 ⟨hb, hbp⟩
          obtain ⟨l₁, l₂, el⟩ := adjacent_of hok hp ht ha1 hbm hi hae hbe
          have hax : a.pk ≠ x.pk := fun e => hxs (hp.inv.pk_inj ((mem_siblings hp hok ht).1 ha1).1 hx e ▸ ha)
          have hbx' : b.pk ≠ x.pk := fun e => hbx (hp.inv.pk_inj hb hx e)
          refine ⟨?_, l₁.filter (fun r => r.pk ≠ x.pk), a, b, l₂.filter (fun r => r.pk ≠ x.pk), ?_, ha2, fun hc => hbs ((hmS b).2 ⟨hbm, hc⟩)⟩
          · unfold moveTo
            rw [if_neg hnn]
            simp only
            rw [reorder_some hl, e]
          · rw [others, el, List.filter_append, List.filter_cons_of_pos (by simpa using hax), List.filter_cons_of_pos (by simpa using hbx')]
    by_cases hpx : pp cfg.steplen x.path = pp cfg.steplen first.path
    · rw [if_pos hpx]
      obtain ⟨nx, hnx1, hnx, hxe⟩ := hp.sib_pos hx (hpx.trans hf2)
      have hlpx : lastpos cfg x.path = .ok nx := by rw [hxe, lastpos_eq hok _ hnx]
      simp only [hlpx]
      by_cases hadj : (nx : Int) = (n : Int) - 1
      · rw [if_pos hadj]
        simp only
        have hfx : first ≠ x := by
          rintro e
          rw [← e, hfe] at hxe
          have := stp_inj hok hn hnx (List.append_cancel_left hxe)
          omega
        have hfx' : first.pk ≠ x.pk := fun e => hfx (hp.inv.pk_inj hf1 hx e)
        refine Or.inl ⟨.before first.pk, ?_, ?_⟩
        · refine Or.inl ⟨first, ?_, rfl⟩
          rw [hbo]
          cases S with
          | nil => cases hf
          | cons y ys =>
            simp only [List.head?_cons, Option.some.injEq] at hf
            subst hf
            rw [List.filter_cons_of_pos (by simpa using hfx')]
            rfl
        left
        refine ⟨_, rfl, h, ?_, rfl, ⟨hx, rfl⟩, ht', rfl⟩
        have hpar : par cfg db.rows t = par cfg db.rows x := by
          simp only [par, parOf]; rw [hpx, hf2]
        rw [hpar]
        refine (Inv.stay hok hp hx ?_).symm
        refine ⟨first, ⟨hf1, hfx⟩, rfl, hpx.symm, ?_, ?_⟩
        · rw [hxe, hfe, plt_append_left, stp_lt_iff hok hnx hn]; omega
        · rintro r ⟨hr, hrx⟩ hpr hlt
          obtain ⟨k, _, hk, hre⟩ := hp.sib_pos hr (hpr.trans (hpx.trans hf2))
          have hkx : k ≠ nx := by
            rintro rfl
            exact hrx (hp.inv.path_inj hr hx (by rw [hre, hxe]))
          rw [hre, hfe, plt_append_left, stp_lt_iff hok hk hn] at hlt
          rw [hre, hxe, plt_append_left, stp_lt_iff hok hk hnx]
          omega
      · rw [if_neg hadj]
        exact hgo
    · rw [if_neg hpx]
      exact hgo

/-- **`move` with `node_order_by`, any values.**  The list is the one of the other children of the new parent. -/
theorem move_any (hok : cfg.Ok) {db : DB} (h : Inv cfg db.rows) (ho : cfg.ordered = true) {x t : Row}
    (hx : x ∈ db.rows) (ht : t ∈ db.rows) {posArg : Option Pos} {pos : Pos}
    (hprep : preparePosForMove true posArg = .ok pos) (hroom : AnyRoom cfg db.rows x (destPath cfg pos t)) :
    (Refused x t pos ∧ move cfg db x t posArg = .error .invalidMoveToDescendant) ∨
    (¬ Refused x t pos ∧ ∃ l : List Row, (∀ r ∈ l, r ∈ db.rows) ∧
      l.map Row.pk = ((PF cfg db.rows).remove x.pk) (destPar (par cfg db.rows t) t.pk pos) ∧
      MovedAny cfg db x t (destPar (par cfg db.rows t) t.pk pos) (destPath cfg pos t) l (move cfg db x t posArg)) := by
  have hpos := sorted_of_prep hprep
  have hoth : ∀ {u : Row}, u ∈ db.rows → (∀ r ∈ others cfg db x u, r ∈ db.rows) ∧
      (others cfg db x u).map Row.pk = ((PF cfg db.rows).remove x.pk) (par cfg db.rows u) := by
    intro u hu
    refine ⟨fun r hr => ((mem_siblings h.toPInv hok hu).1 (List.mem_filter.1 hr).1).1, ?_⟩
    rw [Forest.remove, ← siblings_PF h.toPInv hok hu, List.filter_map, others]
    rfl
  unfold move
  rw [ho, hprep]
  simp only
  rcases moveToChildVars_spec hok h hx ht pos with ⟨hr, e | ⟨v, e, hd⟩⟩ | ⟨hr, hc, e, hd⟩ |
    ⟨hr, hc, hleaf, hne, e, hd⟩ | ⟨hr, hc, last, hlm, hlp, e, hd⟩
  · left; exact ⟨hr, by simp only [e]⟩
  · left; exact ⟨hr, by simp only [e, hd, if_true]⟩
  · right
    refine ⟨hr, ?_⟩
    have hpos : pos = .sortedSibling := by
      rcases hpos with rfl | rfl
      · rfl
      · cases hc
    subst hpos
    simp only [e, hd, if_false, Bool.false_eq_true]
    exact ⟨_, (hoth ht).1, (hoth ht).2, moveSorted_any hok h hx rfl ht hd hroom⟩
  · right
    have hdp : destPath cfg pos t = t.path := by simp [destPath, hc]
    have hpr : destPar (par cfg db.rows t) t.pk pos = some t.pk := by simp [destPar, hc]
    refine ⟨hr, [], by simp, ?_, Or.inl ⟨.last, headSlot_nil rfl, ?_⟩⟩
    · rw [hpr, Forest.remove, (isLeaf_iff h ht).1 hleaf]
      rfl
    · simp only [e, hd, if_false, Bool.false_eq_true]
      rw [hdp, hpr]
      simp only [moveSorted, reduceCtorEq, if_false]
      exact moveTo_leaf hok h hx (by simp [hc]) ht hd hne hleaf (Or.inr rfl)
  · right
    refine ⟨hr, ?_⟩
    have hpos : pos = .sortedChild := by
      rcases hpos with rfl | rfl
      · cases hc
      · rfl
    subst hpos
    simp only [e, hd, if_false, Bool.false_eq_true]
    have hdp : destPath cfg .sortedChild t = pp cfg.steplen last.path := by simp [destPath, hc, hlp]
    have hpr : destPar (par cfg db.rows t) t.pk .sortedChild = par cfg db.rows last := by
      simp only [destPar, hc, if_true]
      exact ((par_eq_some_iff h.inv ht).2 hlp).symm
    rw [hdp] at hroom ⊢
    rw [hpr]
    exact ⟨_, (hoth hlm).1, (hoth hlm).2, moveSorted_any hok h hx (by simp [hc]) hlm hd hroom⟩

end Verif.MP
