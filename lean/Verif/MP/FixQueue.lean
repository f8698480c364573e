/-
MP: the `while` loop of `fix_tree(fix_paths=True)` (mp_tree.py:180-238).
-/
import Verif.MP.FixRound

namespace Verif.MP

set_option linter.unusedSectionVars false

variable {cfg : Cfg} {rows rows' : List Row}

/-- the children of `p` stand at the positions 1, 2, 3, … -/
def Consec (cfg : Cfg) (rows : List Row) (p : Option Nat) : Prop :=
  ∀ j k, (PF cfg rows p)[j]? = some k → ∃ r ∈ rows, r.pk = k ∧ lastSeg cfg.steplen r.path = stp cfg (j + 1)

/-- the group of the children of `p` is as it should be -/
def Finished (cfg : Cfg) (v : Nat → Vals) (nn : Prop) (rows : List Row) (p : Option Nat) : Prop :=
  Consec cfg rows p ∧ (cfg.ordered = true → nn → (PF cfg rows p).Pairwise (fun a b => ¬ keyLt cfg.orderBy (v b) (v a)))

theorem finished_nil {v : Nat → Vals} {nn : Prop} {p : Option Nat} (e : PF cfg rows p = []) : Finished cfg v nn rows p := by
  constructor
  · intro j k hj; rw [e] at hj; simp at hj
  · intro _ _; rw [e]; exact List.Pairwise.nil

section

variable {P : List Nat} {d : Nat} {ord : List Row → List Row} {g : List Nat → List Nat} {pos : Nat → Nat}
  {q : List (List Nat × Nat)} (hok : cfg.Ok) (h : Inv cfg rows) (ho : OrdersBy cfg ord) (hP : IsPar rows P)
  (hd : P.length + cfg.steplen = d * cfg.steplen) (hr : Round cfg rows P d (group ord rows P d) g pos rows' q)

include hok h ho hP hd hr

theorem Round.par_eq {r : Row} (hm : r ∈ rows) :
    par cfg rows' { r with path := mapAt cfg.steplen P g r.path } = par cfg rows r := by
  rw [hr.table]
  exact regroup_par hok h.toPInv hP (kids_group hok h.toPInv ho hd) hr.placed hm

theorem Round.at_eq (Q : List Nat) : at? rows' (mapAt cfg.steplen P g Q) = at? rows Q := by
  rw [hr.table]
  exact map_pkAt (f := fun r => { r with path := mapAt cfg.steplen P g r.path }) h.inv (pathMap_mapAt hok.step hr.placed.step (hP.dvd h.toPInv)) (fun _ _ => rfl) (fun _ _ => rfl) Q

theorem Round.inv : Inv cfg rows' := by
  have hp : PInv cfg rows' := by
    rw [hr.table]; exact regroup_PInv hok h.toPInv hP (kids_group hok h.toPInv ho hd) hr.placed
  refine ⟨hp, ?_⟩
  intro r' hr'
  have e := hr.table
  rw [e] at hr'
  obtain ⟨r, hm, rfl⟩ := List.mem_map.1 hr'
  simp only
  rw [h.num r hm, length_PF, length_PF]
  conv_rhs => rw [e]
  unfold regroup
  rw [List.countP_map]
  congr 1
  refine List.countP_congr (fun a ha => ?_)
  simp only [Function.comp_apply, decide_eq_true_eq]
  have := hr.par_eq hok h ho hP hd ha
  rw [e] at this
  unfold regroup at this
  rw [this]

theorem Round.mem {k : Nat} {p : Option Nat} : k ∈ PF cfg rows' p ↔ k ∈ PF cfg rows p := by
  rw [hr.table]
  exact map_mem (f := fun r => { r with path := mapAt cfg.steplen P g r.path }) h.inv (pathMap_mapAt hok.step hr.placed.step (hP.dvd h.toPInv)) (fun _ _ => rfl) (fun _ _ => rfl)

theorem Round.steps_lt : (group ord rows P d).Pairwise (fun a b => pos a.pk < pos b.pk) := by
  rw [List.pairwise_iff_getElem]
  intro i j hi hj hij
  rw [hr.steps i _ (List.getElem?_eq_getElem hi), hr.steps j _ (List.getElem?_eq_getElem hj)]
  omega

theorem Round.kids : PF cfg rows' (at? rows P) = (group ord rows P d).map Row.pk := by
  rw [hr.table]
  exact regroup_group hok h.toPInv hP (kids_group hok h.toPInv ho hd) hr.placed (hr.steps_lt hok h ho hP hd)

theorem Round.other {p : Option Nat} (hne : p ≠ at? rows P) : PF cfg rows' p = PF cfg rows p := by
  rw [hr.table]
  exact regroup_other hok h.toPInv hP (kids_group hok h.toPInv ho hd) hr.placed hne

/-- without `node_order_by` no node changes its place among its siblings -/
theorem Round.plain (hord : cfg.ordered = false) : PF cfg rows' = PF cfg rows := by
  funext p
  by_cases hne : p = at? rows P
  · subst hne
    rw [hr.kids hok h ho hP hd]
    obtain ⟨m, e, hs, hm⟩ := sibs_list (db := { rows }) h.toPInv hok hP
    simp only at e hm
    rw [e]
    congr 1
    have hk := kids_group hok h.toPInv ho hd
    have hsort : (group ord rows P d).Pairwise (fun a b => a.path < b.path) := by
      unfold group
      rw [ho.byPath hord]
      exact orderByPath_strict ((List.filter_sublist.map Row.path).nodup h.inv.pathNodup)
    exact sorted_unique (T := fun _ => True) (lt := fun a b : Row => a.path < b.path) (fun _ _ _ _ hab => plt_asymm hab)
      (fun _ _ => trivial) hsort hs (fun r => by rw [hk.mem, hm])
  · exact hr.other hok h ho hP hd hne

variable {v : Nat → Vals} {nn : Prop} (hv : ∀ r ∈ rows, v r.pk = r.vals) (hnn : nn → ∀ r ∈ rows, NonNull cfg.orderBy r.vals)

include hv hnn in
/-- the group of the round is finished -/
theorem Round.finished : Finished cfg v nn rows' (at? rows P) := by
  have hk := kids_group hok h.toPInv ho hd
  constructor
  · intro j k hj
    rw [hr.kids hok h ho hP hd, List.getElem?_map, Option.map_eq_some_iff] at hj
    obtain ⟨r, hj, rfl⟩ := hj
    have hm := List.mem_of_getElem? hj
    refine ⟨{ r with path := mapAt cfg.steplen P g r.path }, ?_, rfl, ?_⟩
    · rw [hr.table]; exact List.mem_map_of_mem ((hk.mem r).1 hm).1
    · simp only
      rw [kid_mapAt hok h.toPInv hP hk hr.placed hm, hr.steps j r hj]
      refine lastSeg_append (stp_length hok ?_)
      have := (hr.placed.place r hm).2.1
      rw [hr.steps j r hj] at this
      exact this
  · intro hord hn
    rw [hr.kids hok h ho hP hd, List.pairwise_map]
    have := ho.sorted hord (rows.filter (fun r => P.isPrefixOf r.path && r.depth == d))
      (fun r hr => hnn hn r (List.mem_filter.1 hr).1)
    refine List.Pairwise.imp_of_mem ?_ this
    intro a b ha hb hab
    rw [hv a ((hk.mem a).1 ha).1, hv b ((hk.mem b).1 hb).1]
    exact hab

/-- other groups stay finished -/
theorem Round.keep {p : Option Nat} (hne : p ≠ at? rows P) (hf : Finished cfg v nn rows p) : Finished cfg v nn rows' p := by
  have hs := hok.step
  have e := hr.other hok h ho hP hd hne
  constructor
  · intro j k hj
    rw [e] at hj
    obtain ⟨r, hm, hk, hl⟩ := hf.1 j k hj
    have hkm := List.mem_of_getElem? hj
    obtain ⟨r', hm', hpar, hk'⟩ := (mem_pforest h.inv).1 hkm
    have : r' = r := h.inv.pk_inj hm' hm (by rw [hk', hk])
    subst this
    refine ⟨{ r' with path := mapAt cfg.steplen P g r'.path }, ?_, hk, ?_⟩
    · rw [hr.table]; exact List.mem_map_of_mem hm
    · simp only
      have hlen := h.inv.len r' hm
      have hne' : pp cfg.steplen r'.path ≠ P := by
        rintro rfl
        exact hne hpar.symm
      rw [← pp_append_lastSeg (L := cfg.steplen) r'.path, mapAt_other g (hP.dvd h.toPInv) (by
        rw [pp_length]; exact Nat.dvd_sub hlen.1 (Nat.dvd_refl _)) (lastSeg_length hlen.2) hne',
        lastSeg_append (lastSeg_length hlen.2)]
      exact hl
  · intro hord hn
    rw [e]; exact hf.2 hord hn

end

/-- a row below a row without children is this row -/
theorem no_child (hok : cfg.Ok) (h : Inv cfg rows) {c r : Row} (hc : c ∈ rows) (hr : r ∈ rows) (h0 : c.numchild = 0)
    (hp : c.path <+: r.path) : r.path = c.path := by
  have hs := hok.step
  by_contra hne
  obtain ⟨u, hu⟩ := hp
  have hul : u ≠ [] := by rintro rfl; exact hne (by simpa using hu.symm)
  have hlc := h.inv.len c hc
  have hlr := h.inv.len r hr
  have hsum : r.path.length = c.path.length + u.length := by rw [← hu]; simp
  have hu2 : cfg.steplen ∣ u.length := by
    rw [hsum] at hlr; exact (Nat.dvd_add_right hlc.1).1 hlr.1
  have hu3 : cfg.steplen ≤ u.length := Nat.le_of_dvd (List.length_pos_of_ne_nil hul) hu2
  obtain ⟨q, hq, e⟩ := h.toPInv.prefix_row hok (p := c.path ++ u.take cfg.steplen)
    (by rw [List.length_append, List.length_take, Nat.min_eq_left hu3]; exact Nat.dvd_add hlc.1 (Nat.dvd_refl _))
    (by intro e; have := congrArg List.length e; simp only [List.length_append, List.length_nil] at this; omega)
    _ r hr (Nat.le_refl _) (by
      rw [← hu]; exact (List.prefix_append_right_inj _).2 (List.take_prefix _ _))
  have hpar : par cfg rows q = some c.pk := by
    rw [parOf_eq_some h.inv]
    refine ⟨c, hc, ?_, rfl⟩
    rw [e]; exact (pp_append_step (by rw [List.length_take, Nat.min_eq_left hu3])).symm
  have hm : q.pk ∈ PF cfg rows (some c.pk) := (mem_pforest h.inv).2 ⟨q, hq, hpar, rfl⟩
  have hn := h.num c hc
  rw [h0] at hn
  have : (PF cfg rows (some c.pk)).length = 0 := by omega
  rw [List.length_eq_zero_iff] at this
  rw [this] at hm
  simp at hm

/-- the row with the path `φ path` -/
def repath (φ : List Nat → List Nat) (r : Row) : Row := { r with path := φ r.path }

/-- What holds between the rounds: `rows₀` is the table before the first round, `S` the path of the parent. -/
structure Rounds (cfg : Cfg) (v : Nat → Vals) (nn : Prop) (S : List Nat) (rows₀ : List Row) (φ : List Nat → List Nat)
    (queue : List (List Nat × Nat)) (rows : List Row) : Prop where
  table : rows = rows₀.map (repath φ)
  inv : Inv cfg rows
  len : ∀ r ∈ rows₀, (φ r.path).length = r.path.length
  mem : ∀ k p, k ∈ PF cfg rows p ↔ k ∈ PF cfg rows₀ p
  out : ∀ r ∈ rows₀, ¬ (S <+: r.path ∧ r.path ≠ S) → φ r.path = r.path
  into : ∀ r ∈ rows₀, S <+: r.path → S <+: φ r.path
  plain : cfg.ordered = false → PF cfg rows = PF cfg rows₀
  entries : ∀ e ∈ queue, S <+: e.1 ∧ IsPar rows e.1 ∧ e.1.length + cfg.steplen = e.2 * cfg.steplen
  sep : queue.Pairwise (fun a b => ¬ a.1 <+: b.1 ∧ ¬ b.1 <+: a.1)
  cover : ∀ Q, IsPar rows Q → S <+: Q → (∃ e ∈ queue, e.1 <+: Q) ∨ Finished cfg v nn rows (at? rows Q)

section

variable {P S : List Nat} {d : Nat} {ord : List Row → List Row} {g φ : List Nat → List Nat} {pos : Nat → Nat} {rows₀ : List Row}
  {q rest : List (List Nat × Nat)} {v : Nat → Vals} {nn : Prop} (hok : cfg.Ok) (ho : OrdersBy cfg ord)
  (hv : ∀ r ∈ rows₀, v r.pk = r.vals) (hnn : nn → ∀ r ∈ rows₀, NonNull cfg.orderBy r.vals)
  (hR : Rounds cfg v nn S rows₀ φ ((P, d) :: rest) rows)
  (hr : Round cfg rows P d (group ord rows P d) g pos rows' q)

include hok ho hv hnn hR hr

theorem Rounds.next : Rounds cfg v nn S rows₀ (fun p => mapAt cfg.steplen P g (φ p)) (rest ++ q) rows' := by
  have hs := hok.step
  obtain ⟨hSP, hP, hd⟩ := hR.entries (P, d) (by simp)
  simp only at hSP hP hd
  have h := hR.inv
  have hk := kids_group hok h.toPInv ho hd
  have hsep := List.pairwise_cons.1 hR.sep
  have hvr : ∀ r ∈ rows, v r.pk = r.vals := by
    intro r hm; rw [hR.table] at hm; obtain ⟨r₀, hm₀, rfl⟩ := List.mem_map.1 hm; exact hv r₀ hm₀
  have hnr : nn → ∀ r ∈ rows, NonNull cfg.orderBy r.vals := by
    intro hn r hm; rw [hR.table] at hm; obtain ⟨r₀, hm₀, rfl⟩ := List.mem_map.1 hm; exact hnn hn r₀ hm₀
  -- a path that is not below `P` stays
  have hstay : ∀ Q, ¬ P <+: Q → mapAt cfg.steplen P g Q = Q := by
    intro Q hQ
    refine mapAt_not (fun s t _ e => hQ ?_)
    rw [e]; exact List.prefix_append _ _
  have hrest : ∀ e ∈ rest, ∀ Q, e.1 <+: Q → ¬ P <+: Q := by
    intro e he Q h1 h2
    rcases List.prefix_or_prefix_of_prefix h1 h2 with h3 | h3
    · exact (hsep.1 e he).2 h3
    · exact (hsep.1 e he).1 h3
  have hqm : ∀ e ∈ q, ∃ c ∈ group ord rows P d, c.numchild ≠ 0 ∧ e = (P ++ stp cfg (pos c.pk), d + 1) := by
    intro e he
    rw [hr.queue] at he
    obtain ⟨c, hc, rfl⟩ := List.mem_map.1 he
    obtain ⟨hc, hn⟩ := List.mem_filter.1 hc
    exact ⟨c, hc, by simpa using hn, rfl⟩
  refine ⟨?_, hr.inv hok h ho hP hd, ?_, ?_, ?_, ?_, ?_, ?_, ?_, ?_⟩
  · rw [hr.table, hR.table]
    unfold regroup
    rw [List.map_map]
    rfl
  · intro r hm; rw [mapAt_len hr.placed.step]; exact hR.len r hm
  · intro k p; rw [hr.mem hok h ho hP hd]; exact hR.mem k p
  · intro r hm hn
    rw [hR.out r hm hn]
    refine mapAt_not (fun s t hsl e => hn ?_)
    refine ⟨?_, ?_⟩
    · rw [e]; exact hSP.trans (List.prefix_append _ _)
    · rintro rfl
      have h1 := hSP.length_le
      have h2 := congrArg List.length e
      simp only [List.length_append, hsl] at h2
      omega
  · intro r hm hp
    have := hR.into r hm hp
    rcases mapAt_cases cfg.steplen P (φ r.path) with ⟨s, t, hsl, e⟩ | hn
    · rw [e, mapAt_below hsl]; exact hSP.trans (List.prefix_append _ _)
    · rw [mapAt_not hn]; exact this
  · intro hord
    rw [hr.plain hok h ho hP hd hord, hR.plain hord]
  · intro e he
    rcases List.mem_append.1 he with he | he
    · obtain ⟨h1, h2, h3⟩ := hR.entries e (by simp [he])
      refine ⟨h1, ?_, h3⟩
      rw [hr.table]
      refine h2.map (fun r _ er => ?_)
      simp only
      rw [er]
      exact hstay _ (hrest e he e.1 (List.prefix_refl _))
    · obtain ⟨c, hc, _, rfl⟩ := hqm e he
      refine ⟨hSP.trans (List.prefix_append _ _), Or.inr ?_, ?_⟩
      · refine ⟨{ c with path := mapAt cfg.steplen P g c.path }, ?_, kid_mapAt hok h.toPInv hP hk hr.placed hc⟩
        rw [hr.table]; exact List.mem_map_of_mem ((hk.mem c).1 hc).1
      · simp only [List.length_append]
        rw [stp_length hok (hr.placed.place c hc).2.1, hd, Nat.add_mul]
        omega
  · rw [List.pairwise_append]
    refine ⟨hsep.2, ?_, ?_⟩
    · rw [hr.queue, List.pairwise_map]
      refine ((hr.steps_lt hok h ho hP hd).sublist List.filter_sublist).imp_of_mem ?_
      intro a b ha hb hab
      have ha := (hr.placed.place a (List.mem_filter.1 ha).1).2.1
      have hb := (hr.placed.place b (List.mem_filter.1 hb).1).2.1
      have hne : P ++ stp cfg (pos a.pk) ≠ P ++ stp cfg (pos b.pk) := by
        intro e
        have := stp_inj hok ha hb (List.append_cancel_left e)
        omega
      have hlen : (P ++ stp cfg (pos a.pk)).length = (P ++ stp cfg (pos b.pk)).length := by
        simp only [List.length_append, stp_length hok ha, stp_length hok hb]
      exact ⟨fun hp => hne (hp.eq_of_length hlen), fun hp => hne (hp.eq_of_length hlen.symm).symm⟩
    · intro a ha b hb
      obtain ⟨c, hc, _, rfl⟩ := hqm b hb
      simp only
      refine ⟨fun hp => hrest a ha _ hp (List.prefix_append _ _), fun hp => ?_⟩
      exact hrest a ha a.1 (List.prefix_refl _) ((List.prefix_append _ _).trans hp)
  · intro Q' hQ' hS'
    -- the path before the round
    obtain ⟨Q, hQ, rfl⟩ : ∃ Q, IsPar rows Q ∧ Q' = mapAt cfg.steplen P g Q := by
      rcases hQ' with rfl | ⟨x, hx, rfl⟩
      · refine ⟨[], Or.inl rfl, ?_⟩
        have := mapAt_len (L := cfg.steplen) (P := P) hr.placed.step []
        exact (List.length_eq_zero_iff.1 this).symm
      · rw [hr.table] at hx
        obtain ⟨y, hy, rfl⟩ := List.mem_map.1 hx
        exact ⟨y.path, Or.inr ⟨y, hy, rfl⟩, rfl⟩
    have hS : S <+: Q := by
      by_cases hp : P <+: Q
      · exact hSP.trans hp
      · rw [hstay Q hp] at hS'; exact hS'
    rw [hr.at_eq hok h ho hP hd]
    by_cases heq : Q = P
    · subst heq
      exact Or.inr (hr.finished hok h ho hP hd hvr hnr)
    have hne : at? rows Q ≠ at? rows P := by
      intro e
      apply heq
      rcases hQ with rfl | ⟨x, hx, rfl⟩
      · rcases hP with rfl | ⟨y, hy, rfl⟩
        · rfl
        · rw [(at?_eq_pk h.toPInv hy).2 rfl] at e
          have := ((at?_eq_pk h.toPInv hy).1 e)
          exact this.symm
      · rw [(at?_eq_pk h.toPInv hx).2 rfl] at e
        exact (at?_eq_pk h.toPInv hx).1 e.symm
    rcases hR.cover Q hQ hS with ⟨e, he, hpre⟩ | hf
    · rcases List.mem_cons.1 he with rfl | he
      · -- below the group of this round
        simp only at hpre
        obtain ⟨x, hx, hxp⟩ : ∃ x ∈ rows, x.path = Q := by
          rcases hQ with rfl | hq
          · exact absurd (List.prefix_nil.1 hpre).symm heq
          · exact hq
        rcases mapAt_cases cfg.steplen P Q with ⟨s, t, hsl, e⟩ | hn
        · obtain ⟨c, hc, hcm, hcs⟩ := below_child hok h.toPInv hP hk hr.placed hx hsl (by rw [hxp, e])
          by_cases h0 : c.numchild = 0
          · right
            have hcr := ((hk.mem c).1 hc).1
            have hcp := (kid_path hok h.toPInv hP hk hr.placed hc).1
            have hxc : x.path = c.path := no_child hok h hcr hx h0 (by
              rw [hxp, e, hcp, hcs, ← List.append_assoc]; exact List.prefix_append _ _)
            refine hr.keep hok h ho hP hd hne (finished_nil ?_)
            rw [← hxp, hxc, (at?_eq_pk h.toPInv hcr).2 rfl]
            have := h.num c hcr
            rw [h0] at this
            exact List.length_eq_zero_iff.1 (by omega)
          · left
            refine ⟨(P ++ stp cfg (pos c.pk), d + 1), ?_, ?_⟩
            · refine List.mem_append_right _ ?_
              rw [hr.queue]
              exact List.mem_map.2 ⟨c, List.mem_filter.2 ⟨hc, by simpa using h0⟩, rfl⟩
            · simp only
              rw [e, mapAt_below hsl, ← hcs, (hr.placed.place c hc).2.2, ← List.append_assoc]
              exact List.prefix_append _ _
        · -- impossible: the lengths are multiples of the step length
          exfalso
          obtain ⟨u, hu⟩ := hpre
          have hul : u ≠ [] := by rintro rfl; exact heq (by simpa using hu.symm)
          have hlx := h.inv.len x hx
          have hdvd := hP.dvd h.toPInv
          rw [hxp, ← hu, List.length_append] at hlx
          have hu2 : cfg.steplen ∣ u.length := (Nat.dvd_add_right hdvd).1 hlx.1
          have hu3 : cfg.steplen ≤ u.length := Nat.le_of_dvd (List.length_pos_of_ne_nil hul) hu2
          refine hn (u.take cfg.steplen) (u.drop cfg.steplen) (by rw [List.length_take, Nat.min_eq_left hu3]) ?_
          rw [List.take_append_drop, hu]
      · left
        refine ⟨e, List.mem_append_left _ he, ?_⟩
        rw [hstay Q (hrest e he Q hpre)]
        exact hpre
    · exact Or.inr (hr.keep hok h ho hP hd hne hf)

end

/-- the work left: the groups in the queue, and the rows below them -/
def work (queue : List (List Nat × Nat)) (rows : List Row) : Nat :=
  queue.length + rows.countP (fun r => decide (∃ e ∈ queue, e.1 <+: r.path ∧ e.1 ≠ r.path))

theorem countP_add_le {α : Type} {A B C : α → Bool} : ∀ {l : List α}, (∀ a ∈ l, A a = true → C a = true ∧ B a = false) →
    (∀ a ∈ l, B a = true → C a = true) → l.countP A + l.countP B ≤ l.countP C
  | [], _, _ => by simp
  | a :: l, h1, h2 => by
    have ih := countP_add_le (l := l) (fun b hb => h1 b (by simp [hb])) (fun b hb => h2 b (by simp [hb]))
    have ha := h1 a (by simp)
    have hb := h2 a (by simp)
    simp only [List.countP_cons]
    cases hA : A a <;> cases hB : B a <;> cases hC : C a <;> simp_all <;> omega

section

variable {P S : List Nat} {d : Nat} {ord : List Row → List Row} {g φ : List Nat → List Nat} {pos : Nat → Nat} {rows₀ : List Row}
  {q rest : List (List Nat × Nat)} {v : Nat → Vals} {nn : Prop} (hok : cfg.Ok) (ho : OrdersBy cfg ord)
  (hR : Rounds cfg v nn S rows₀ φ ((P, d) :: rest) rows)
  (hr : Round cfg rows P d (group ord rows P d) g pos rows' q)

include hok ho hR hr

/-- every round makes the work less -/
theorem Rounds.work_lt : work (rest ++ q) rows' < work ((P, d) :: rest) rows := by
  have hs := hok.step
  obtain ⟨hSP, hP, hd⟩ := hR.entries (P, d) (by simp)
  simp only at hSP hP hd
  have h := hR.inv
  have hk := kids_group hok h.toPInv ho hd
  have hsep := List.pairwise_cons.1 hR.sep
  have hrest : ∀ e ∈ rest, ∀ Q, e.1 <+: Q → ¬ P <+: Q := by
    intro e he Q h1 h2
    rcases List.prefix_or_prefix_of_prefix h1 h2 with h3 | h3
    · exact (hsep.1 e he).2 h3
    · exact (hsep.1 e he).1 h3
  unfold work
  rw [hr.table]
  unfold regroup
  rw [List.countP_map]
  have hq : q.length ≤ (group ord rows P d).length := by
    rw [hr.queue, List.length_map]; exact List.length_filter_le _ _
  have hg : (group ord rows P d).length = rows.countP (fun r => decide (pp cfg.steplen r.path = P)) := by
    have hperm : (group ord rows P d).Perm (rows.filter (fun r => decide (pp cfg.steplen r.path = P))) := by
      refine (List.perm_ext_iff_of_nodup (List.Nodup.of_map _ hk.nodup)
        ((List.Nodup.of_map _ h.inv.pkNodup).filter _)).2 (fun r => ?_)
      rw [hk.mem, List.mem_filter, decide_eq_true_eq]
    rw [hperm.length_eq, List.countP_eq_length_filter]
  have := countP_add_le (l := rows)
    (A := (fun r : Row => decide (∃ e ∈ rest ++ q, e.1 <+: r.path ∧ e.1 ≠ r.path)) ∘
      fun r => { r with path := mapAt cfg.steplen P g r.path })
    (B := fun r => decide (pp cfg.steplen r.path = P))
    (C := fun r => decide (∃ e ∈ (P, d) :: rest, e.1 <+: r.path ∧ e.1 ≠ r.path)) ?_ ?_
  · simp only [List.length_append, List.length_cons]
    omega
  · intro r hm hA
    simp only [Function.comp_apply, decide_eq_true_eq, decide_eq_false_iff_not] at hA ⊢
    obtain ⟨e, he, hpre, hne⟩ := hA
    rcases List.mem_append.1 he with he | he
    · -- below a group that was already in the queue
      have hnp : ¬ P <+: r.path := by
        intro hp
        rcases mapAt_cases cfg.steplen P r.path with ⟨s, t, hsl, e'⟩ | hn
        · rw [e', mapAt_below hsl] at hpre
          exact hrest e he _ hpre (List.prefix_append _ _)
        · rw [mapAt_not hn] at hpre
          exact hrest e he _ hpre hp
      have hst : mapAt cfg.steplen P g r.path = r.path :=
        mapAt_not (fun s t _ e => hnp (by rw [e]; exact List.prefix_append _ _))
      rw [hst] at hpre hne
      exact ⟨⟨e, by simp [he], hpre, hne⟩, fun hpp => hnp (by rw [← hpp]; exact pp_prefix _)⟩
    · -- below a child of `P`
      rw [hr.queue] at he
      obtain ⟨c, hc, rfl⟩ := List.mem_map.1 he
      have hc := (List.mem_filter.1 hc).1
      simp only at hpre hne
      rcases mapAt_cases cfg.steplen P r.path with ⟨s, t, hsl, e'⟩ | hn
      · refine ⟨⟨(P, d), by simp, ?_, ?_⟩, ?_⟩
        · rw [e']; exact List.prefix_append _ _
        · simp only
          intro e
          have := congrArg List.length e
          rw [e'] at this
          simp only [List.length_append, hsl] at this
          omega
        · intro hpp
          have hrl : r ∈ group ord rows P d := (hk.mem r).2 ⟨hm, hpp⟩
          rw [kid_mapAt hok h.toPInv hP hk hr.placed hrl] at hpre hne
          refine hne (hpre.eq_of_length ?_)
          simp only [List.length_append, stp_length hok (hr.placed.place c hc).2.1, stp_length hok (hr.placed.place r hrl).2.1]
      · exfalso
        rw [mapAt_not hn] at hpre
        obtain ⟨u, hu⟩ := hpre
        exact hn (stp cfg (pos c.pk)) u (stp_length hok (hr.placed.place c hc).2.1) (by rw [← hu, List.append_assoc])
  · intro r hm hB
    simp only [decide_eq_true_eq] at hB ⊢
    refine ⟨(P, d), by simp, ?_, ?_⟩
    · simp only; rw [← hB]; exact pp_prefix _
    · simp only
      intro e
      have h1 := congrArg List.length e
      rw [← hB, pp_length] at h1
      have := (h.inv.len r hm).2
      omega

end

/-- the `while` loop ends, with every group in the branch finished, or with `PathOverflow` -/
theorem fixQueue_spec (hok : cfg.Ok) {ord : List Row → List Row} (ho : OrdersBy cfg ord) {v : Nat → Vals} {nn : Prop} {S : List Nat}
    {rows₀ : List Row} (hv : ∀ r ∈ rows₀, v r.pk = r.vals) (hnn : nn → ∀ r ∈ rows₀, NonNull cfg.orderBy r.vals) :
    ∀ (fuel : Nat) (queue : List (List Nat × Nat)) (db : DB) (φ : List Nat → List Nat),
    Rounds cfg v nn S rows₀ φ queue db.rows → work queue db.rows ≤ fuel →
    (∃ db' φ', fixQueue cfg ord fuel queue db = .ok db' ∧ Rounds cfg v nn S rows₀ φ' [] db'.rows ∧
      ∀ w, Feeds cfg w db db') ∨
    (fixQueue cfg ord fuel queue db = .error .pathOverflow ∧ cfg.ordered = true) := by
  intro fuel
  induction fuel with
  | zero =>
    intro queue db φ hR hw
    cases queue with
    | nil => exact Or.inl ⟨db, φ, by unfold fixQueue; rfl, hR, fun w => Feeds.refl⟩
    | cons e q => unfold work at hw; simp at hw
  | succ fuel ih =>
    intro queue db φ hR hw
    cases queue with
    | nil => exact Or.inl ⟨db, φ, by unfold fixQueue; rfl, hR, fun w => Feeds.refl⟩
    | cons e rest =>
      obtain ⟨P, d⟩ := e
      obtain ⟨hSP, hP, hd⟩ := hR.entries (P, d) (by simp)
      unfold fixQueue
      rcases fixGroup_spec hok hR.inv.toPInv ho hP hd with ⟨db', q, g, pos, e, hr, hf⟩ | ⟨e, hord⟩
      · rw [e]
        simp only
        have hlt := hR.work_lt hok ho hr
        rcases ih _ _ _ (hR.next hok ho hv hnn hr) (by omega) with ⟨db'', φ', e', h', hf'⟩ | h'
        · exact Or.inl ⟨db'', φ', e', h', fun w => (hf w).trans (hf' w)⟩
        · exact Or.inr h'
      · rw [e]
        exact Or.inr ⟨rfl, hord⟩

end Verif.MP
