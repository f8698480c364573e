/-
MP: renumbering one group of siblings.
-/
import Verif.MP.FixModel
import Verif.MP.Rename
import Verif.PathMap

namespace Verif.MP

set_option linter.unusedSectionVars false

variable {cfg : Cfg} {rows : List Row} {db : DB}

/-- rewrite the step that follows `P` -/
def mapAt (L : Nat) (P : List Nat) (g : List Nat → List Nat) (p : List Nat) : List Nat :=
  if P.isPrefixOf p ∧ P.length + L ≤ p.length then P ++ (g ((p.drop P.length).take L) ++ p.drop (P.length + L)) else p

theorem mapAt_below {L : Nat} {P s t : List Nat} {g : List Nat → List Nat} (hs : s.length = L) :
    mapAt L P g (P ++ (s ++ t)) = P ++ (g s ++ t) := by
  unfold mapAt
  rw [if_pos ⟨by simp, by simp; omega⟩]
  subst hs
  simp [List.drop_append]

theorem mapAt_not {L : Nat} {P p : List Nat} {g : List Nat → List Nat} (h : ∀ s t, s.length = L → p ≠ P ++ (s ++ t)) :
    mapAt L P g p = p := by
  unfold mapAt
  rw [if_neg]
  rintro ⟨h1, h2⟩
  obtain ⟨u, rfl⟩ := List.isPrefixOf_iff_prefix.1 h1
  refine h (u.take L) (u.drop L) ?_ (by rw [List.take_append_drop])
  rw [List.length_take]
  simp at h2
  omega

theorem mapAt_cases (L : Nat) (P p : List Nat) : (∃ s t, s.length = L ∧ p = P ++ (s ++ t)) ∨ ∀ s t, s.length = L → p ≠ P ++ (s ++ t) := by
  by_cases h : ∃ s t, s.length = L ∧ p = P ++ (s ++ t)
  · exact Or.inl h
  · exact Or.inr (fun s t hs e => h ⟨s, t, hs, e⟩)

/-- a rewriting of steps -/
structure StepMap (g : List Nat → List Nat) : Prop where
  inj : ∀ s t, g s = g t → s = t
  len : ∀ s, (g s).length = s.length

theorem StepMap.id : StepMap (fun s => s) := ⟨fun _ _ e => e, fun _ => rfl⟩

theorem mapAt_id (L : Nat) (P p : List Nat) : mapAt L P (fun s => s) p = p := by
  rcases mapAt_cases L P p with ⟨s, t, hs, rfl⟩ | h
  · exact mapAt_below hs
  · exact mapAt_not h

theorem mapAt_len {L : Nat} {P : List Nat} {g : List Nat → List Nat} (hg : StepMap g) (p : List Nat) :
    (mapAt L P g p).length = p.length := by
  rcases mapAt_cases L P p with ⟨s, t, hs, rfl⟩ | h
  · rw [mapAt_below hs]; simp [hg.len]
  · rw [mapAt_not h]

theorem mapAt_inj {L : Nat} {P : List Nat} {g : List Nat → List Nat} (hg : StepMap g) (p q : List Nat)
    (e : mapAt L P g p = mapAt L P g q) : p = q := by
  rcases mapAt_cases L P p with ⟨s, t, hs, rfl⟩ | h <;> rcases mapAt_cases L P q with ⟨s', t', hs', rfl⟩ | h'
  · rw [mapAt_below hs, mapAt_below hs'] at e
    have e := List.append_cancel_left e
    obtain ⟨e1, e2⟩ := List.append_inj e (by rw [hg.len, hg.len, hs, hs'])
    rw [hg.inj _ _ e1, e2]
  · rw [mapAt_below hs, mapAt_not h'] at e
    exact absurd e.symm (h' _ _ (by rw [hg.len, hs]))
  · rw [mapAt_below hs', mapAt_not h] at e
    exact absurd e (h _ _ (by rw [hg.len, hs']))
  · rwa [mapAt_not h, mapAt_not h'] at e

theorem mapAt_self {L : Nat} (hL : 0 < L) (P : List Nat) (g : List Nat → List Nat) : mapAt L P g P = P := by
  apply mapAt_not
  intro s t hs e
  have := congrArg List.length e
  simp only [List.length_append, hs] at this
  omega

theorem mapAt_child (L : Nat) (P : List Nat) (g : List Nat → List Nat) {a : List Nat} (ha : a.length = L) :
    mapAt L P g (P ++ a) = P ++ g a := by
  have := mapAt_below (P := P) (t := []) (g := g) ha
  simpa using this

/-- a step below another node stays -/
theorem mapAt_other {L : Nat} {P Q a : List Nat} (g : List Nat → List Nat) (hP : L ∣ P.length) (hQ : L ∣ Q.length)
    (ha : a.length = L) (hne : Q ≠ P) : mapAt L P g (Q ++ a) = mapAt L P g Q ++ a := by
  rcases mapAt_cases L P Q with ⟨s, t, hs, rfl⟩ | h
  · rw [mapAt_below hs]
    have := mapAt_below (P := P) (t := t ++ a) (g := g) hs
    simp only [List.append_assoc] at this ⊢
    exact this
  · rw [mapAt_not h, mapAt_not]
    intro s t hs e
    have hl := congrArg List.length e
    simp only [List.length_append, ha, hs] at hl
    have hpre : P <+: Q := by
      have h1 : P <+: Q ++ a := by rw [e]; exact List.prefix_append _ _
      exact List.prefix_of_prefix_length_le h1 (List.prefix_append _ _) (by omega)
    obtain ⟨u, rfl⟩ := hpre
    have hu : u ≠ [] := by rintro rfl; simp at hne
    have hdu : L ∣ u.length := by
      rw [List.length_append] at hQ
      exact (Nat.dvd_add_right hP).1 hQ
    have hul : L ≤ u.length := Nat.le_of_dvd (List.length_pos_of_ne_nil hu) hdu
    exact h (u.take L) (u.drop L) (by rw [List.length_take]; omega) (by rw [List.take_append_drop])

theorem mapAt_pp {L : Nat} (hL : 0 < L) {P : List Nat} {g : List Nat → List Nat} (hg : StepMap g) (hP : L ∣ P.length) {p : List Nat}
    (hp : L ∣ p.length) : pp L (mapAt L P g p) = mapAt L P g (pp L p) := by
  by_cases h0 : p.length = 0
  · rw [List.length_eq_zero_iff] at h0
    subst h0
    have : mapAt L P g [] = [] := by
      apply List.length_eq_zero_iff.1
      rw [mapAt_len hg]; rfl
    simp [pp, this]
  · have hl : L ≤ p.length := Nat.le_of_dvd (by omega) hp
    have hla := lastSeg_length hl
    have hsplit := pp_append_lastSeg (L := L) p
    have hq : L ∣ (pp L p).length := by rw [pp_length]; exact Nat.dvd_sub hp (Nat.dvd_refl L)
    conv_lhs => rw [← hsplit]
    by_cases hne : pp L p = P
    · rw [hne, mapAt_child L P g hla, mapAt_self hL, pp_append_step (by rw [hg.len, hla])]
    · rw [mapAt_other g hP hq hla hne, pp_append_step hla]

theorem pathMap_mapAt {L : Nat} (hL : 0 < L) {P : List Nat} {g : List Nat → List Nat} (hg : StepMap g) (hP : L ∣ P.length) :
    PathMap L (mapAt L P g) :=
  ⟨mapAt_inj hg, fun _ hp => mapAt_pp hL hg hP hp, mapAt_len hg⟩

/-- exchange two steps -/
def swapStep (s s' u : List Nat) : List Nat := if u = s then s' else if u = s' then s else u

theorem swapStep_swap (s s' u : List Nat) : swapStep s s' (swapStep s s' u) = u := by
  unfold swapStep
  by_cases h1 : u = s
  · subst h1
    rw [if_pos rfl]
    by_cases h2 : s' = u
    · rw [if_pos h2, h2]
    · rw [if_neg h2, if_pos rfl]
  · rw [if_neg h1]
    by_cases h2 : u = s'
    · rw [if_pos h2, if_pos rfl, h2]
    · rw [if_neg h2, if_neg h1, if_neg h2]

theorem stepMap_swap {g : List Nat → List Nat} (hg : StepMap g) {s s' : List Nat} (h : s.length = s'.length) :
    StepMap (fun u => swapStep s s' (g u)) := by
  constructor
  · intro a b e
    apply hg.inj
    have := congrArg (swapStep s s') e
    rwa [swapStep_swap, swapStep_swap] at this
  · intro u
    rw [← hg.len u]
    unfold swapStep
    split
    · rename_i e; rw [e, h]
    · split
      · rename_i e; rw [e, h]
      · rfl

theorem ren_mapAt {L : Nat} {P s s' p : List Nat} {g : List Nat → List Nat} (hg : StepMap g) (hs : s.length = L)
    (hfree : ¬ (P ++ s') <+: mapAt L P g p) :
    ren (P ++ s) (P ++ s') (mapAt L P g p) = mapAt L P (fun u => swapStep s s' (g u)) p := by
  rcases mapAt_cases L P p with ⟨u, t, hu, rfl⟩ | h
  · rw [mapAt_below hu] at hfree ⊢
    rw [mapAt_below hu]
    by_cases e : g u = s
    · rw [e, ren_of_prefix t (by simp)]
      simp [swapStep]
    · have hne' : g u ≠ s' := by
        intro e'; apply hfree; rw [e', ← List.append_assoc]; exact List.prefix_append _ _
      rw [ren_of_not_prefix]
      · simp [swapStep, e, hne']
      · rintro ⟨v, hv⟩
        rw [List.append_assoc] at hv
        have := (List.append_inj (List.append_cancel_left hv) (by rw [hg.len, hu, hs])).1
        exact e this.symm
  · rw [mapAt_not h] at hfree ⊢
    rw [mapAt_not h, ren_of_not_prefix]
    rintro ⟨v, hv⟩
    exact h s v hs (by rw [← List.append_assoc, hv])

/-! ### The table -/

/-- rewrite the steps below `P` in every row -/
def regroup (cfg : Cfg) (P : List Nat) (g : List Nat → List Nat) (rows : List Row) : List Row :=
  rows.map (fun r => { r with path := mapAt cfg.steplen P g r.path })

theorem regroup_id (P : List Nat) : regroup cfg P (fun s => s) rows = rows := by
  unfold regroup
  simp only [mapAt_id]
  exact List.map_id rows

/-- the children of `P`, in the order asked for -/
structure Kids (cfg : Cfg) (rows : List Row) (P : List Nat) (l : List Row) : Prop where
  mem : ∀ r, r ∈ l ↔ r ∈ rows ∧ pp cfg.steplen r.path = P
  nodup : (l.map Row.pk).Nodup

/-- `pos` gives the current position of every child -/
structure Placed (cfg : Cfg) (P : List Nat) (l : List Row) (g : List Nat → List Nat) (pos : Nat → Nat) : Prop where
  step : StepMap g
  place : ∀ r ∈ l, 1 ≤ pos r.pk ∧ pos r.pk < cfg.cap ∧ g (lastSeg cfg.steplen r.path) = stp cfg (pos r.pk)

section

variable {P : List Nat} {l : List Row} {g : List Nat → List Nat} {pos : Nat → Nat} (hok : cfg.Ok) (h : PInv cfg rows) (hP : IsPar rows P)
  (hk : Kids cfg rows P l) (hp : Placed cfg P l g pos)

include hok h hP hk hp

theorem regroup_pathInv : PI cfg (regroup cfg P g rows) :=
  map_inv h.inv (pathMap_mapAt hok.step hp.step (hP.dvd h)) (fun _ _ => rfl) (fun _ _ => rfl)

theorem regroup_par {r : Row} (hr : r ∈ rows) :
    par cfg (regroup cfg P g rows) { r with path := mapAt cfg.steplen P g r.path } = par cfg rows r :=
  map_parOf (f := fun r : Row => { r with path := mapAt cfg.steplen P g r.path }) h.inv (pathMap_mapAt hok.step hp.step (hP.dvd h))
    (fun _ _ => rfl) (fun _ _ => rfl) hr

/-- the step after `P` of a row below `P` is the step of a child -/
theorem below_child {r : Row} (hr : r ∈ rows) {s t : List Nat} (hs : s.length = cfg.steplen) (e : r.path = P ++ (s ++ t)) :
    ∃ c ∈ l, c.path = P ++ s ∧ lastSeg cfg.steplen c.path = s := by
  have hd : cfg.steplen ∣ (P ++ s).length := by
    rw [List.length_append, hs]; exact Nat.dvd_add (hP.dvd h) (Nat.dvd_refl _)
  obtain ⟨c, hc, ec⟩ := h.prefix_row hok hd (by
    intro e0
    have h1 := congrArg List.length e0
    have h2 := hok.step
    simp only [List.length_append, hs, List.length_nil] at h1
    omega) _ r hr (Nat.le_refl _) (by rw [e, ← List.append_assoc]; exact List.prefix_append _ _)
  exact ⟨c, (hk.mem c).2 ⟨hc, by rw [ec]; exact pp_append_step hs⟩, ec, by rw [ec]; exact lastSeg_append hs⟩

theorem kid_path {r : Row} (hr : r ∈ l) : r.path = P ++ lastSeg cfg.steplen r.path ∧ (lastSeg cfg.steplen r.path).length = cfg.steplen := by
  obtain ⟨h1, h2⟩ := (hk.mem r).1 hr
  exact ⟨by conv_lhs => rw [← pp_append_lastSeg (L := cfg.steplen) r.path, h2], lastSeg_length (h.inv.len r h1).2⟩

theorem kid_mapAt {r : Row} (hr : r ∈ l) : mapAt cfg.steplen P g r.path = P ++ stp cfg (pos r.pk) := by
  obtain ⟨e, hl⟩ := kid_path hok h hP hk hp hr
  rw [e, mapAt_child _ _ _ hl, (hp.place r hr).2.2]

theorem placed_inj {a b : Row} (ha : a ∈ l) (hb : b ∈ l) (e : pos a.pk = pos b.pk) : a = b := by
  have h1 := (hp.place a ha).2.2
  have h2 := (hp.place b hb).2.2
  rw [e, ← h2] at h1
  have h3 := hp.step.inj _ _ h1
  apply h.inv.path_inj ((hk.mem a).1 ha).1 ((hk.mem b).1 hb).1
  rw [(kid_path hok h hP hk hp ha).1, (kid_path hok h hP hk hp hb).1, h3]

/-- a path at a position that no child has is free -/
theorem position_free {n : Nat} (hn : n < cfg.cap) (hno : ∀ r ∈ l, pos r.pk ≠ n) {r : Row} (hr : r ∈ rows) :
    ¬ (P ++ stp cfg n) <+: mapAt cfg.steplen P g r.path := by
  rcases mapAt_cases cfg.steplen P r.path with ⟨s, t, hs, e⟩ | hn'
  · rw [e, mapAt_below hs]
    rintro ⟨v, hv⟩
    rw [List.append_assoc] at hv
    have hg := (List.append_inj (List.append_cancel_left hv) (by rw [hp.step.len, hs, stp_length hok hn])).1
    obtain ⟨c, hc, _, hcs⟩ := below_child hok h hP hk hp hr hs e
    have := (hp.place c hc).2.2
    rw [hcs, ← hg] at this
    exact hno c hc (stp_inj hok hn (hp.place c hc).2.1 this).symm
  · rw [mapAt_not hn']
    rintro ⟨v, hv⟩
    exact hn' _ v (stp_length hok hn) (by rw [← List.append_assoc, hv])

/-- rewriting one node's path to a free position -/
theorem rewritePath_spec {x : Row} (hx : x ∈ l) {n : Nat} (h1 : 1 ≤ n) (hn : n < cfg.cap) (hno : ∀ r ∈ l, pos r.pk ≠ n)
    (hdb : db.rows = regroup cfg P g rows) :
    ∃ db' g', rewritePath db (P ++ stp cfg (pos x.pk)) (P ++ stp cfg n) = .ok db' ∧ db'.rows = regroup cfg P g' rows ∧
      Placed cfg P l g' (Function.update pos x.pk n) := by
  obtain ⟨hx1, hx2, hx3⟩ := hp.place x hx
  have hsl := stp_length hok hx2
  have hnl := stp_length hok hn
  have hp' : Placed cfg P l (fun u => swapStep (stp cfg (pos x.pk)) (stp cfg n) (g u)) (Function.update pos x.pk n) := by
    refine ⟨stepMap_swap hp.step (by rw [hsl, hnl]), ?_⟩
    intro r hr
    by_cases e : r.pk = x.pk
    · have : r = x := nodup_map_inj hk.nodup hr hx e
      subst this
      simp only [Function.update_self]
      exact ⟨h1, hn, by rw [hx3]; simp [swapStep]⟩
    · rw [Function.update_of_ne e]
      obtain ⟨r1, r2, r3⟩ := hp.place r hr
      refine ⟨r1, r2, ?_⟩
      rw [r3]
      unfold swapStep
      rw [if_neg, if_neg]
      · intro e'; exact hno r hr (stp_inj hok r2 hn e')
      · intro e'
        exact e (by rw [placed_inj hok h hP hk hp hr hx (stp_inj hok r2 hx2 e')])
  have hrows : db.rows.map (fun r => { r with path := ren (P ++ stp cfg (pos x.pk)) (P ++ stp cfg n) r.path }) =
      regroup cfg P (fun u => swapStep (stp cfg (pos x.pk)) (stp cfg n) (g u)) rows := by
    rw [hdb]
    unfold regroup
    rw [List.map_map]
    apply List.map_congr_left
    intro r hr
    simp only [Function.comp]
    rw [ren_mapAt hp.step hsl (position_free hok h hP hk hp hn hno hr)]
  have hu := (regroup_pathInv hok h hP hk hp').pathNodup
  rw [← uniquePaths_iff] at hu
  unfold rewritePath
  simp only [hrows]
  rw [if_pos hu]
  exact ⟨_, _, rfl, rfl, hp'⟩

/-- the table stays consistent in its paths -/
theorem regroup_PInv : PInv cfg (regroup cfg P g rows) := by
  have hstep := hok.step
  refine ⟨regroup_pathInv hok h hP hk hp, ?_, ?_, ?_⟩
  · intro r' hr' c hc
    obtain ⟨r, hr, rfl⟩ := List.mem_map.1 hr'
    simp only at hc
    rcases mapAt_cases cfg.steplen P r.path with ⟨s, t, hs, e⟩ | hn
    · have hrc := h.chars r hr
      obtain ⟨k, hkl, _, hks⟩ := below_child hok h hP hk hp hr hs e
      rw [e, mapAt_below hs, ← hks, (hp.place k hkl).2.2] at hc
      rw [e] at hrc
      simp only [List.mem_append] at hc hrc
      rcases hc with hc | hc | hc
      · exact hrc c (Or.inl hc)
      · exact stp_chars hok (hp.place k hkl).2.1 c hc
      · exact hrc c (Or.inr (Or.inr hc))
    · rw [mapAt_not hn] at hc
      exact h.chars r hr c hc
  · intro r' hr'
    obtain ⟨r, hr, rfl⟩ := List.mem_map.1 hr'
    simp only
    rw [mapAt_len hp.step]
    exact h.depth r hr
  · intro r' hr'
    obtain ⟨r, hr, rfl⟩ := List.mem_map.1 hr'
    simp only
    obtain ⟨n, h1, h2, e⟩ := h.pos r hr
    rw [mapAt_pp hstep hp.step (hP.dvd h) (h.inv.len r hr).1]
    by_cases hne : pp cfg.steplen r.path = P
    · have hrl : r ∈ l := (hk.mem r).2 ⟨hr, hne⟩
      refine ⟨pos r.pk, (hp.place r hrl).1, (hp.place r hrl).2.1, ?_⟩
      rw [kid_mapAt hok h hP hk hp hrl, hne, mapAt_self hstep]
    · refine ⟨n, h1, h2, ?_⟩
      conv_lhs => rw [e]
      refine mapAt_other g (hP.dvd h) ?_ (stp_length hok h2) hne
      rw [pp_length]; exact Nat.dvd_sub (h.inv.len r hr).1 (Nat.dvd_refl _)

theorem kid_par {r : Row} (hr : r ∈ rows) : pp cfg.steplen r.path = P ↔ par cfg rows r = at? rows P := by
  constructor
  · intro e; unfold par parOf; rw [e]
  · intro e
    refine pp_of_par h.inv hok.step hr ?_ e
    rcases hP with rfl | hq
    · exact Or.inl rfl
    · exact Or.inr hq

/-- the other groups keep their children and their order -/
theorem regroup_other {p : Option Nat} (hne : p ≠ at? rows P) : PF cfg (regroup cfg P g rows) p = PF cfg rows p := by
  have hstep := hok.step
  have h' := regroup_pathInv hok h hP hk hp
  obtain ⟨m, e, so, hm⟩ := (shows_pforest h.inv).lists p
  obtain ⟨m', e', so', hm'⟩ := (shows_pforest h').lists p
  have : m' = m.map (fun r => { r with path := mapAt cfg.steplen P g r.path }) := by
    refine sorted_unique (T := fun _ => True) (lt := fun a b : Row => a.path < b.path) (fun _ _ _ _ hab => plt_asymm hab)
      (fun _ _ => trivial) so' ?_ ?_
    · rw [List.pairwise_map]
      refine so.imp_of_mem ?_
      intro a b ha hb hab
      obtain ⟨ha1, ha2⟩ := (hm a).1 ha
      obtain ⟨hb1, hb2⟩ := (hm b).1 hb
      have hpp : pp cfg.steplen a.path = pp cfg.steplen b.path := by
        refine pp_of_par h.inv hstep ha1 ?_ (by rw [ha2, ← hb2]; rfl)
        by_cases hl : cfg.steplen < b.path.length
        · exact Or.inr (h.inv.closed b hb1 hl)
        · left; rw [pp_length]; omega
      have hQ : pp cfg.steplen b.path ≠ P := by
        intro e
        exact hne (by rw [← hb2]; exact (kid_par hok h hP hk hp hb1).1 e)
      have hd : cfg.steplen ∣ (pp cfg.steplen b.path).length := by
        rw [pp_length]; exact Nat.dvd_sub (h.inv.len b hb1).1 (Nat.dvd_refl _)
      have hla := lastSeg_length (h.inv.len a ha1).2
      have hlb := lastSeg_length (h.inv.len b hb1).2
      rw [← pp_append_lastSeg (L := cfg.steplen) a.path, ← pp_append_lastSeg (L := cfg.steplen) b.path, hpp,
        plt_append_left] at hab
      simp only
      rw [← pp_append_lastSeg (L := cfg.steplen) a.path, ← pp_append_lastSeg (L := cfg.steplen) b.path, hpp,
        mapAt_other g (hP.dvd h) hd hla hQ, mapAt_other g (hP.dvd h) hd hlb hQ, plt_append_left]
      exact hab
    · intro r'
      rw [hm', List.mem_map]
      constructor
      · rintro ⟨hr', ep⟩
        obtain ⟨r, hr, rfl⟩ := List.mem_map.1 hr'
        rw [show parOf cfg.steplen Row.pk Row.path (regroup cfg P g rows) _ = _ from regroup_par hok h hP hk hp hr] at ep
        exact ⟨r, (hm r).2 ⟨hr, ep⟩, rfl⟩
      · rintro ⟨r, hr, rfl⟩
        obtain ⟨hr, ep⟩ := (hm r).1 hr
        exact ⟨List.mem_map_of_mem hr, by rw [← ep]; exact regroup_par hok h hP hk hp hr⟩
  show pforest cfg.steplen Row.pk Row.path (regroup cfg P g rows) p = pforest cfg.steplen Row.pk Row.path rows p
  rw [e, e', this, List.map_map]
  rfl

/-- the group has the children in the order of their positions -/
theorem regroup_group (hs : l.Pairwise (fun a b => pos a.pk < pos b.pk)) :
    PF cfg (regroup cfg P g rows) (at? rows P) = l.map Row.pk := by
  have h' := regroup_pathInv hok h hP hk hp
  obtain ⟨m', e', so', hm'⟩ := (shows_pforest h').lists (at? rows P)
  have : m' = l.map (fun r => { r with path := mapAt cfg.steplen P g r.path }) := by
    refine sorted_unique (T := fun _ => True) (lt := fun a b : Row => a.path < b.path) (fun _ _ _ _ hab => plt_asymm hab)
      (fun _ _ => trivial) so' ?_ ?_
    · rw [List.pairwise_map]
      refine hs.imp_of_mem ?_
      intro a b ha hb hab
      simp only
      rw [kid_mapAt hok h hP hk hp ha, kid_mapAt hok h hP hk hp hb, plt_append_left,
        stp_lt_iff hok (hp.place a ha).2.1 (hp.place b hb).2.1]
      exact hab
    · intro r'
      rw [hm', List.mem_map]
      constructor
      · rintro ⟨hr', ep⟩
        obtain ⟨r, hr, rfl⟩ := List.mem_map.1 hr'
        rw [show parOf cfg.steplen Row.pk Row.path (regroup cfg P g rows) _ = _ from regroup_par hok h hP hk hp hr] at ep
        exact ⟨r, (hk.mem r).2 ⟨hr, (kid_par hok h hP hk hp hr).2 ep⟩, rfl⟩
      · rintro ⟨r, hr, rfl⟩
        obtain ⟨hr, ep⟩ := (hk.mem r).1 hr
        refine ⟨List.mem_map_of_mem hr, ?_⟩
        rw [show parOf cfg.steplen Row.pk Row.path (regroup cfg P g rows) _ = _ from regroup_par hok h hP hk hp hr]
        exact (kid_par hok h hP hk hp hr).1 ep
  show pforest cfg.steplen Row.pk Row.path (regroup cfg P g rows) (at? rows P) = _
  rw [e', this, List.map_map]
  rfl

end

end Verif.MP
