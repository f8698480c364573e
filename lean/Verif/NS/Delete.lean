/-
NS: `delete`.
-/
import Verif.NS.Move

namespace Verif.NS

variable {rows : List Row} {db : DB}

/-! ### Descendants -/

theorem desc_PF (h : NI rows) {q r : Row} (hq : q ∈ rows) (hr : r ∈ rows) : (PF rows).Desc q.pk r.pk ↔ encl q r := by
  constructor
  · intro hd
    have key : ∀ a d, (PF rows).Desc a d → a = q.pk → ∀ r ∈ rows, r.pk = d → encl q r := by
      intro a d hd
      induction hd with
      | child hm =>
        rintro rfl r hr rfl
        obtain ⟨r', hr', hp, e⟩ := (mem_PF h).1 hm
        rw [h.pk_inj hr' hr e] at hp
        exact ((par_row h hq hr).1 hp).2.1
      | step hd' hm ih =>
        rintro rfl r hr rfl
        obtain ⟨r', hr', hp, e⟩ := (mem_PF h).1 hm
        rw [h.pk_inj hr' hr e] at hp
        obtain ⟨p, hi, hpk⟩ := (par_eq_some h hr).1 hp
        exact encl_trans (ih rfl p hi.1 hpk) hi.2.1
    exact key _ _ hd rfl r hr rfl
  · have key : ∀ n r, r ∈ rows → above rows r = n → encl q r → (PF rows).Desc q.pk r.pk := by
      intro n
      induction n with
      | zero =>
        intro r hr hn he
        unfold above at hn
        rw [List.countP_eq_zero] at hn
        exact absurd (by simpa using he) (hn q hq)
      | succ n ih =>
        intro r hr hn he
        rcases par_cases h hr with ⟨_, hno⟩ | ⟨p, hi, e⟩
        · exact absurd he (hno q hq)
        · have hm : r.pk ∈ PF rows (some p.pk) := (mem_PF h).2 ⟨r, hr, e, rfl⟩
          rcases hi.2.2 q hq he with rfl | hpq
          · exact .child hm
          · have := above_inner h hi
            exact .step (ih p hi.1 (by omega) hpq) hm
    exact key _ r hr rfl

/-- only stored nodes have descendants -/
theorem desc_stored (h : NI rows) {a d : Nat} (hd : (PF rows).Desc a d) : ∃ q ∈ rows, q.pk = a := by
  induction hd with
  | child hm =>
    obtain ⟨r, hr, hp, _⟩ := (mem_PF h).1 hm
    obtain ⟨p, hi, e⟩ := (par_eq_some h hr).1 hp
    exact ⟨p, hi.1, e⟩
  | step _ _ ih => exact ih

/-! ### The ranges -/

/-- the nodes whose ranges are removed -/
def kept : List Row → Option Row → List Row
  | [], _ => []
  | n :: ns, last =>
    if skips last n then kept ns last
    else n :: kept ns (some n)

/-- the range of a node -/
def rng (n : Row) : Int × Int × Int := (n.tree, n.lft, n.rgt)

theorem removeRanges_eq (ns : List Row) : ∀ last, removeRanges ns last = (kept ns last).map rng := by
  induction ns with
  | nil => intro _; rfl
  | cons n ns ih =>
    intro last
    simp only [removeRanges, kept]
    split
    · exact ih last
    · simp [ih, rng]

theorem kept_sublist (ns : List Row) : ∀ last, (kept ns last).Sublist ns := by
  induction ns with
  | nil => intro _; exact List.Sublist.refl _
  | cons n ns ih =>
    intro last
    simp only [kept]
    split
    · exact (ih last).cons n
    · exact (ih (some n)).cons_cons n

theorem skip_iff (h : NI rows) {l n : Row} (hl : l ∈ rows) (hn : n ∈ rows) :
    (l.tree = n.tree ∧ l.lft ≤ n.lft ∧ n.rgt ≤ l.rgt) ↔ InB l n := by
  rw [h.inB_iff hl hn]
  have h1 := h.lr l hl
  have h2 := h.lr n hn
  constructor
  · rintro ⟨a, b, c⟩; exact ⟨a.symm, b, by omega⟩
  · rintro ⟨a, b, c⟩
    refine ⟨a.symm, b, ?_⟩
    rcases (h.inB_iff hl hn).2 ⟨a, b, c⟩ with rfl | e
    · exact Int.le_refl _
    · unfold encl at e; omega

theorem kept_cover (h : NI rows) (ns : List Row) : ∀ last, (∀ n ∈ ns, n ∈ rows) → (∀ l, last = some l → l ∈ rows) →
    ∀ n ∈ ns, (∃ l, last = some l ∧ InB l n) ∨ ∃ k ∈ kept ns last, InB k n := by
  induction ns with
  | nil => intro _ _ _ n hn; simp at hn
  | cons m ns ih =>
    intro last hns hlast n hn
    simp only [kept]
    have hm := hns m (by simp)
    split
    · rename_i hc
      rcases List.mem_cons.1 hn with rfl | hn
      · left
        cases last with
        | none => cases hc
        | some l =>
          simp only [skips, decide_eq_true_eq] at hc
          exact ⟨l, rfl, (skip_iff h (hlast l rfl) hm).1 hc⟩
      · exact ih last (fun n hn => hns n (by simp [hn])) hlast n hn
    · rcases List.mem_cons.1 hn with rfl | hn
      · exact Or.inr ⟨n, by simp, Or.inl rfl⟩
      · right
        rcases ih (some m) (fun n hn => hns n (by simp [hn])) (by rintro l ⟨⟩; exact hm) n hn with ⟨l, e, hB⟩ | ⟨k, hk, hB⟩
        · cases e; exact ⟨m, by simp, hB⟩
        · exact ⟨k, by simp [hk], hB⟩

/-- the ranges do not touch -/
theorem kept_disjoint (h : NI rows) (ns : List Row) : ∀ last, (∀ n ∈ ns, n ∈ rows) → ns.Pairwise lt →
    (∀ l, last = some l → l ∈ rows ∧ ∀ n ∈ ns, lt l n) →
    (kept ns last).Pairwise (fun a b => a.tree = b.tree → a.rgt < b.lft) ∧
      ∀ l, last = some l → ∀ k ∈ kept ns last, l.tree = k.tree → l.rgt < k.lft := by
  induction ns with
  | nil => intro _ _ _ _; exact ⟨List.Pairwise.nil, fun _ _ k hk => by simp [kept] at hk⟩
  | cons m ns ih =>
    intro last hns hs hlast
    have hm := hns m (by simp)
    have hns' : ∀ n ∈ ns, n ∈ rows := fun n hn => hns n (by simp [hn])
    obtain ⟨hs1, hs2⟩ := List.pairwise_cons.1 hs
    simp only [kept]
    split
    · exact ih last hns' hs2 (fun l e => ⟨(hlast l e).1, fun n hn => (hlast l e).2 n (by simp [hn])⟩)
    · rename_i hc
      obtain ⟨h1, h2⟩ := ih (some m) hns' hs2 (by rintro l ⟨⟩; exact ⟨hm, hs1⟩)
      refine ⟨List.pairwise_cons.2 ⟨h2 m rfl, h1⟩, ?_⟩
      rintro l rfl k hk ht
      simp only [skips, decide_eq_true_eq] at hc
      obtain ⟨hl, hlt⟩ := hlast l rfl
      have hmB := fun e => hc ((skip_iff h hl hm).2 e)
      have hltm := hlt m (by simp)
      rw [lt_iff] at hltm
      have hfirst : l.tree = m.tree → l.rgt < m.lft := by
        intro htm
        by_contra hcc
        exact hmB ((h.inB_iff hl hm).2 ⟨htm.symm, by omega, by omega⟩)
      rcases List.mem_cons.1 hk with rfl | hk'
      · exact hfirst ht
      · have hmk := hs1 k ((kept_sublist ns _).mem hk')
        rw [lt_iff] at hmk
        have hkl := hlt k (by simp [(kept_sublist ns _).mem hk'])
        have := hfirst (by omega)
        omega

/-! ### Removing branches -/

/-- the row is in a selected branch -/
def doomed (rows : List Row) (sel : Row → Bool) (r : Row) : Bool :=
  rows.any (fun q => sel q && decide (r = q ∨ encl q r))

theorem doomed_iff {sel : Row → Bool} {r : Row} : doomed rows sel r = true ↔ ∃ q ∈ rows, sel q = true ∧ InB q r := by
  unfold doomed InB
  simp [List.any_eq_true]

/-- the keys of the doomed rows -/
def doomedPk (rows : List Row) (sel : Row → Bool) (k : Nat) : Bool := rows.any (fun r => r.pk == k && doomed rows sel r)

theorem doomedPk_pk (h : NI rows) (sel : Row → Bool) {r : Row} (hr : r ∈ rows) : doomedPk rows sel r.pk = doomed rows sel r := by
  rw [Bool.eq_iff_iff]
  unfold doomedPk
  rw [List.any_eq_true]
  constructor
  · rintro ⟨q, hq, e⟩
    rw [Bool.and_eq_true, beq_iff_eq] at e
    rw [← h.pk_inj hq hr e.1]; exact e.2
  · intro hd; exact ⟨r, hr, by simp [hd]⟩

section Filter

variable {D : Row → Bool} (h : NI rows) (hD : ∀ q ∈ rows, ∀ r ∈ rows, encl q r → D q = true → D r = true)

include h hD

omit h in
theorem keep_above {r : Row} (hr : r ∈ rows) (hk : D r = false) {q : Row} (hq : q ∈ rows) (he : encl q r) : D q = false := by
  cases e : D q with
  | false => rfl
  | true => rw [hD q hq r hr he e] at hk; cases hk

omit h in
theorem filter_above {r : Row} (hr : r ∈ rows) (hk : D r = false) : above (rows.filter (fun r => !D r)) r = above rows r := by
  unfold above
  rw [List.countP_filter]
  apply List.countP_congr
  intro q hq
  simp only [Bool.and_eq_true, decide_eq_true_eq]
  constructor
  · exact fun e => e.1
  · intro e; exact ⟨e, by simp [keep_above hD hr hk hq e]⟩

theorem filter_ni : NI (rows.filter (fun r => !D r)) := by
  have hm : ∀ r, r ∈ rows.filter (fun r => !D r) ↔ r ∈ rows ∧ D r = false := by
    intro r; rw [List.mem_filter]; simp
  refine ⟨h.pks.sublist (List.filter_sublist.map _), fun r hr => h.lr r ((hm r).1 hr).1, fun r hr => h.one r ((hm r).1 hr).1,
    fun r hr => h.tree r ((hm r).1 hr).1, fun r hr q hq => h.dist r ((hm r).1 hr).1 q ((hm q).1 hq).1,
    fun r hr q hq => h.lam r ((hm r).1 hr).1 q ((hm q).1 hq).1, ?_, ?_⟩
  · intro r hr hl
    obtain ⟨hr, hk⟩ := (hm r).1 hr
    obtain ⟨q, hq, h1, he⟩ := h.root r hr hl
    exact ⟨q, (hm q).2 ⟨hq, keep_above hD hr hk hq he⟩, h1, he⟩
  · intro r hr
    obtain ⟨hr, hk⟩ := (hm r).1 hr
    rw [filter_above hD hr hk]; exact h.depth r hr

theorem filter_par {r : Row} (hr : r ∈ rows) (hk : D r = false) : par (rows.filter (fun r => !D r)) r = par rows r := by
  have hm : ∀ r, r ∈ rows.filter (fun r => !D r) ↔ r ∈ rows ∧ D r = false := by
    intro r; rw [List.mem_filter]; simp
  have hni := filter_ni h hD
  have hr' := (hm r).2 ⟨hr, hk⟩
  rcases par_cases h hr with ⟨e, hno⟩ | ⟨p, hi, e⟩
  · rw [e, par_eq_none hni hr', ← par_eq_none h hr, e]
  · rw [e]
    refine par_of_inner hni hr' ⟨(hm p).2 ⟨hi.1, keep_above hD hr hk hi.1 hi.2.1⟩, hi.2.1, ?_⟩
    intro q hq he
    exact hi.2.2 q ((hm q).1 hq).1 he

theorem filter_forest {E : Nat → Bool} (hE : ∀ r ∈ rows, E r.pk = D r) : PF (rows.filter (fun r => !D r)) = (PF rows).prune E := by
  have hm : ∀ r, r ∈ rows.filter (fun r => !D r) ↔ r ∈ rows ∧ E r.pk = false := by
    intro r; rw [List.mem_filter]
    constructor
    · rintro ⟨a, b⟩; exact ⟨a, by rw [hE r a]; simpa using b⟩
    · rintro ⟨a, b⟩; rw [hE r a] at b; exact ⟨a, by simp [b]⟩
  refine Shows.prune (shows_PF h) ((shows_PF (filter_ni h hD)).congr ?_ ?_ ?_) ?_ ?_ (asymOn_lt _) ?_
    (par' := par (rows.filter (fun r => !D r)))
  · exact fun r => hm r
  · intro r _; rfl
  · intro _ _ _ _ _ hlt; exact hlt
  · intro r hr hk; exact filter_par h hD hr (by rw [← hE r hr]; exact hk)
  · intro _ _ _ _ _ _ _ hlt; exact hlt
  · intro r p hr hp hEp
    obtain ⟨q, hi, rfl⟩ := (par_eq_some h hr).1 hp
    rw [hE q hi.1] at hEp
    rw [hE r hr]
    exact hD q hi.1 r hr hi.2.1 hEp

end Filter

theorem doomed_closed {sel : Row → Bool} : ∀ q ∈ rows, ∀ r ∈ rows, encl q r → doomed rows sel q = true → doomed rows sel r = true := by
  intro q _ r _ he hd
  obtain ⟨s, hs, h1, h2⟩ := doomed_iff.1 hd
  exact doomed_iff.2 ⟨s, hs, h1, inB_down h2 he⟩

/-! ### Closing the gaps -/

/-- The table between two closings: nested, and the only numbers missing are those of the ranges still to close. -/
structure Closing (rows : List Row) (G : List (Int × Int × Int)) : Prop where
  ni : NI rows
  full : Full rows (fun t i => ∃ g ∈ G, t = g.1 ∧ g.2.1 ≤ i ∧ i ≤ g.2.2)
  gap : ∀ g ∈ G, g.2.1 ≤ g.2.2 ∧ 1 ≤ g.2.1 ∧ (∀ e, EndP rows g.1 e → g.2.1 ≤ e → g.2.2 < e) ∧
    (g.2.1 = 1 → ∀ r ∈ rows, r.tree ≠ g.1)
  desc : G.Pairwise (fun g g' => g.1 = g'.1 → g'.2.2 < g.2.1)

theorem closing_step {g : Int × Int × Int} {G : List (Int × Int × Int)} (h : Closing rows (g :: G)) :
    Closing (rows.map (gapRow g.1 g.2.1 (-(g.2.2 - g.2.1 + 1)))) G ∧
    PF (rows.map (gapRow g.1 g.2.1 (-(g.2.2 - g.2.1 + 1)))) = PF rows ∧
    data (rows.map (gapRow g.1 g.2.1 (-(g.2.2 - g.2.1 + 1)))) = data rows := by
  obtain ⟨hle, h1, hfree, hone⟩ := h.gap g (by simp)
  obtain ⟨d1, d2⟩ := List.pairwise_cons.1 h.desc
  by_cases ha : g.2.1 = 1
  · rw [gap_none (hone ha)]
    refine ⟨⟨h.ni, ?_, fun g' hg' => h.gap g' (by simp [hg']), d2⟩, rfl, rfl⟩
    intro r hr i hi1 hi2
    rcases h.full r hr i hi1 hi2 with he | ⟨g', hg', ht, hr'⟩
    · exact Or.inl he
    · rcases List.mem_cons.1 hg' with rfl | hg'
      · exact absurd ht (hone ha r hr)
      · exact Or.inr ⟨g', hg', ht, hr'⟩
  · have hr := gap_close h.ni (a := g.2.1) (b := g.2.2) (by omega) hfree
    refine ⟨⟨hr.ni h.ni, ?_, ?_, d2⟩, hr.forest h.ni, hr.data⟩
    · have := full_close h.ni h.full hle hfree (by
        rintro i ⟨g', hg', ht, hi1, hi2⟩
        rcases List.mem_cons.1 hg' with rfl | hg'
        · exact hi2
        · have := d1 g' hg' ht; omega)
      refine this.mono ?_
      rintro t i ⟨hor, g', hg', ht, hi1, hi2⟩
      rcases List.mem_cons.1 hg' with rfl | hg'
      · rcases hor with hne | hlt
        · exact absurd ht hne
        · omega
      · exact ⟨g', hg', ht, hi1, hi2⟩
    · intro g' hg'
      obtain ⟨a1, a2, a3, a4⟩ := h.gap g' (by simp [hg'])
      have hd := d1 g' hg'
      refine ⟨a1, a2, ?_, ?_⟩
      · rintro e ⟨r', hr', ht, hor⟩ hle'
        obtain ⟨r, hrr, rfl⟩ := List.mem_map.1 hr'
        rw [hr.tree r hrr] at ht
        have ht : r.tree = g'.1 := ht
        rw [hr.lft r hrr, hr.rgt r hrr] at hor
        obtain ⟨e0, he0, hphi⟩ : ∃ e0, EndP rows g'.1 e0 ∧ gapPhi g.1 g.2.1 (-(g.2.2 - g.2.1 + 1)) g'.1 e0 = e := by
          rcases hor with hor | hor
          · exact ⟨r.lft, ht ▸ EndP.lft hrr, by rw [← ht]; exact hor⟩
          · exact ⟨r.rgt, ht ▸ EndP.rgt hrr, by rw [← ht]; exact hor⟩
        have hf' := a3 e0 he0
        unfold gapPhi at hphi
        split at hphi
        · rename_i hc
          have := hd hc.1.symm
          have := hfree e0 (hc.1 ▸ he0) hc.2
          omega
        · subst hphi; exact hf' hle'
      · intro e1 r' hr'
        obtain ⟨r, hrr, rfl⟩ := List.mem_map.1 hr'
        rw [hr.tree r hrr]
        exact a4 e1 r hrr

/-- after any number of closings -/
theorem closing_prefix : ∀ (G : List (Int × Int × Int)) (db : DB), Closing db.rows G → ∀ n,
    (∃ G', Closing (((G.map DelStmt.close).take n).foldl execDel db).rows G' ∧ (G.length ≤ n → G' = [])) ∧
    PF (((G.map DelStmt.close).take n).foldl execDel db).rows = PF db.rows ∧
    data (((G.map DelStmt.close).take n).foldl execDel db).rows = data db.rows := by
  intro G
  induction G with
  | nil => intro db h n; simpa using h
  | cons g G ih =>
    intro db h n
    cases n with
    | zero => exact ⟨⟨g :: G, h, by simp⟩, rfl, rfl⟩
    | succ n =>
      obtain ⟨h1, h2, h3⟩ := closing_step h
      have := ih (execDel db (.close g)) h1 n
      simp only [List.map_cons, List.take_succ_cons, List.foldl_cons]
      obtain ⟨⟨G', a1, a2⟩, a3, a4⟩ := this
      refine ⟨⟨G', a1, fun hn => a2 (by simpa using hn)⟩, a3.trans h2, a4.trans h3⟩

/-! ### The whole deletion -/

theorem rangeWeak : StrictWeak (fun a b => rangeLt b a) where
  total a b := by simp only [rangeLt, decide_eq_false_iff_not]; omega
  trans a b c := by simp only [rangeLt, decide_eq_false_iff_not]; omega

theorem removed_rows (h : NI rows) (sel : Row → Bool) :
    rows.filter (fun r => !((kept (order (rows.filter sel)) none).map rng).any (fun g => inRange g r)) =
      rows.filter (fun r => !doomed rows sel r) := by
  apply List.filter_congr
  intro r hr
  congr 1
  rw [Bool.eq_iff_iff, doomed_iff, List.any_eq_true]
  have hns : ∀ n ∈ order (rows.filter sel), n ∈ rows ∧ sel n = true := fun n hn => List.mem_filter.1 (mem_order.1 hn)
  constructor
  · rintro ⟨g, hg, hin⟩
    obtain ⟨k, hk, rfl⟩ := List.mem_map.1 hg
    have hk' := hns k ((kept_sublist _ _).mem hk)
    refine ⟨k, hk'.1, hk'.2, (h.inB_iff hk'.1 hr).2 ?_⟩
    exact of_decide_eq_true hin
  · rintro ⟨q, hq, hs, hB⟩
    rcases kept_cover h _ none (fun n hn => (hns n hn).1) (by rintro l ⟨⟩) q (mem_order.2 (List.mem_filter.2 ⟨hq, hs⟩)) with
      ⟨l, e, _⟩ | ⟨k, hk, hkq⟩
    · cases e
    · refine ⟨rng k, List.mem_map_of_mem hk, ?_⟩
      have hk' := (hns k ((kept_sublist _ _).mem hk)).1
      have hkr : InB k r := by
        rcases hB with rfl | he
        · exact hkq
        · exact inB_down hkq he
      exact decide_eq_true ((h.inB_iff hk' hr).1 hkr)

theorem closing_init (h : NInv rows) (sel : Row → Bool) :
    Closing (rows.filter (fun r => !doomed rows sel r))
      (sortBy (fun a b => rangeLt b a) ((kept (order (rows.filter sel)) none).map rng)) := by
  have hns : ∀ n ∈ order (rows.filter sel), n ∈ rows ∧ sel n = true := fun n hn => List.mem_filter.1 (mem_order.1 hn)
  have hkr : ∀ k ∈ kept (order (rows.filter sel)) none, k ∈ rows := fun k hk => (hns k ((kept_sublist _ _).mem hk)).1
  have hks : ∀ k ∈ kept (order (rows.filter sel)) none, sel k = true := fun k hk => (hns k ((kept_sublist _ _).mem hk)).2
  have hmem : ∀ g, g ∈ sortBy (fun a b => rangeLt b a) ((kept (order (rows.filter sel)) none).map rng) ↔
      ∃ k ∈ kept (order (rows.filter sel)) none, rng k = g := by
    intro g; rw [mem_sortBy, List.mem_map]
  have hout : ∀ r ∈ rows.filter (fun r => !doomed rows sel r), r ∈ rows ∧ ∀ k ∈ kept (order (rows.filter sel)) none, ¬ InB k r := by
    intro r hr
    obtain ⟨hr, hd⟩ := List.mem_filter.1 hr
    refine ⟨hr, fun k hk hB => ?_⟩
    rw [doomed_iff.2 ⟨k, hkr k hk, hks k hk, hB⟩] at hd
    cases hd
  have hni := filter_ni h.toNI (doomed_closed (rows := rows) (sel := sel))
  refine ⟨hni, ?_, ?_, ?_⟩
  · intro r hr i h1 h2
    obtain ⟨hr', hnb⟩ := hout r hr
    obtain ⟨q, hq, ht, hor⟩ := h.full r hr' i h1 h2
    by_cases hd : doomed rows sel q = true
    · right
      obtain ⟨s, hs, hsel, hB⟩ := doomed_iff.1 hd
      rcases kept_cover h.toNI _ none (fun n hn => (hns n hn).1) (by rintro l ⟨⟩) s (mem_order.2 (List.mem_filter.2 ⟨hs, hsel⟩)) with
        ⟨l, e, _⟩ | ⟨k, hk, hks'⟩
      · cases e
      · refine ⟨rng k, (hmem _).2 ⟨k, hk, rfl⟩, ?_⟩
        have hkq : InB k q := by
          rcases hB with rfl | he
          · exact hks'
          · exact inB_down hks' he
        have hlq := h.lr q hq
        rcases hkq with rfl | e
        · simp only [rng]; exact ⟨ht.symm, by omega, by omega⟩
        · unfold encl at e; simp only [rng]; exact ⟨by omega, by omega, by omega⟩
    · left
      exact ⟨q, List.mem_filter.2 ⟨hq, by simp [hd]⟩, ht, hor⟩
  · intro g hg
    obtain ⟨k, hk, rfl⟩ := (hmem g).1 hg
    have hk' := hkr k hk
    have hlr := h.lr k hk'
    refine ⟨by simp only [rng]; omega, h.one k hk', ?_, ?_⟩
    · rintro e ⟨r, hr, ht, hor⟩ hle
      obtain ⟨hr', hnb⟩ := hout r hr
      by_contra hc
      exact hnb k hk (h.toNI.inB_of_end hk' hr' ht hor hle (by simp only [rng] at hc ⊢; omega))
    · intro e1 r hr ht
      obtain ⟨hr', hnb⟩ := hout r hr
      have e1 : k.lft = 1 := e1
      have ht : r.tree = k.tree := ht
      by_cases e : r.lft = 1
      · by_cases hne : r = k
        · exact hnb k hk (Or.inl hne)
        · exact (h.dist r hr' k hk' hne ht).1 (e.trans e1.symm)
      · obtain ⟨q, hq, hq1, he⟩ := h.root r hr' e
        by_cases hne : q = k
        · exact hnb k hk (Or.inr (hne ▸ he))
        · exact (h.dist q hq k hk' hne (he.1.trans ht)).1 (hq1.trans e1.symm)
  · have hdis := (kept_disjoint h.toNI _ none (fun n hn => (hns n hn).1) (order_filter_sorted h.toNI sel) (by rintro l ⟨⟩)).1
    have hlrG : ∀ g ∈ sortBy (fun a b => rangeLt b a) ((kept (order (rows.filter sel)) none).map rng), g.2.1 < g.2.2 := by
      intro g hg
      obtain ⟨k, hk, rfl⟩ := (hmem g).1 hg
      exact h.lr k (hkr k hk)
    have hsym : (sortBy (fun a b => rangeLt b a) ((kept (order (rows.filter sel)) none).map rng)).Pairwise
        (fun g g' => g.1 = g'.1 → g.2.2 < g'.2.1 ∨ g'.2.2 < g.2.1) := by
      refine ((sortBy_perm _ _).pairwise_iff ?_).2 ?_
      · intro a b hab e
        exact (hab e.symm).symm
      · rw [List.pairwise_map]
        exact hdis.imp (fun hab e => Or.inl (hab e))
    refine ((sortBy_sorted rangeWeak _).and hsym).imp_of_mem ?_
    rintro g g' hg hg' ⟨h1, h2⟩ e
    have := hlrG g hg
    have := hlrG g' hg'
    simp only [rangeLt, decide_eq_false_iff_not] at h1
    rcases h2 e with h3 | h3
    · omega
    · exact h3

/-- no row is selected, and nothing happens -/
theorem deleteStmts_nil (h : NI db.rows) {sel : Row → Bool} (he : (removeRanges (order (db.rows.filter sel)) none).isEmpty = true) :
    db.rows.filter (fun r => !doomed db.rows sel r) = db.rows := by
  rw [removeRanges_eq, List.isEmpty_iff, List.map_eq_nil_iff] at he
  rw [← removed_rows h, he]
  simp

/-- **The table at any moment of `delete`, after the deletion statement**: nested, with the forest pruned.  When all the
statements are executed, it is also full. -/
theorem delete_prefix (h : NInv db.rows) (sel : Row → Bool) (n : Nat) (hn : n ≠ 0) :
    NI (((deleteStmts db sel).take n).foldl execDel db).rows ∧
    PF (((deleteStmts db sel).take n).foldl execDel db).rows = (PF db.rows).prune (doomedPk db.rows sel) ∧
    data (((deleteStmts db sel).take n).foldl execDel db).rows = (data db.rows).filter (fun e => !doomedPk db.rows sel e.1) ∧
    ((deleteStmts db sel).length ≤ n → NInv (((deleteStmts db sel).take n).foldl execDel db).rows) := by
  obtain ⟨n, rfl⟩ := Nat.exists_eq_succ_of_ne_zero hn
  have hfor := filter_forest h.toNI (doomed_closed (rows := db.rows) (sel := sel)) (E := doomedPk db.rows sel)
    (fun r hr => doomedPk_pk h.toNI sel hr)
  have hni := filter_ni h.toNI (doomed_closed (rows := db.rows) (sel := sel))
  have hdata : data (db.rows.filter (fun r => !doomed db.rows sel r)) = (data db.rows).filter (fun e => !doomedPk db.rows sel e.1) := by
    unfold data
    rw [List.filter_map]
    congr 1
    apply List.filter_congr
    intro r hr
    simp only [Function.comp]
    rw [doomedPk_pk h.toNI sel hr]
  unfold deleteStmts
  simp only
  by_cases he : (removeRanges (order (db.rows.filter sel)) none).isEmpty = true
  · rw [if_pos he]
    rw [deleteStmts_nil h.toNI he] at hfor hdata
    exact ⟨h.toNI, hfor, hdata, fun _ => h⟩
  · rw [if_neg he]
    have hc := closing_init h sel
    rw [removeRanges_eq]
    simp only [List.take_succ_cons, List.foldl_cons]
    obtain ⟨⟨G', c1, c2⟩, c3, c4⟩ := closing_prefix _ (execDel db (.delete ((kept (order (db.rows.filter sel)) none).map rng)))
      (by
        have : (execDel db (.delete ((kept (order (db.rows.filter sel)) none).map rng))).rows =
            db.rows.filter (fun r => !doomed db.rows sel r) := removed_rows h.toNI sel
        rw [this]; exact hc) n
    have hrows : (execDel db (.delete ((kept (order (db.rows.filter sel)) none).map rng))).rows =
        db.rows.filter (fun r => !doomed db.rows sel r) := removed_rows h.toNI sel
    rw [hrows] at c3 c4
    refine ⟨c1.ni, c3.trans hfor, c4.trans hdata, fun hlen => ?_⟩
    have := c2 (by simpa using hlen)
    subst this
    exact NInv.of_full c1.ni c1.full (by rintro r _ i ⟨g, hg, _⟩; simp at hg)

/-- **`delete`.** -/
theorem delete_spec (h : NInv db.rows) (sel : Row → Bool) :
    NInv (delete db sel).rows ∧ PF (delete db sel).rows = (PF db.rows).prune (doomedPk db.rows sel) ∧
    data (delete db sel).rows = (data db.rows).filter (fun e => !doomedPk db.rows sel e.1) := by
  obtain ⟨_, h2, h3, h4⟩ := delete_prefix h sel ((deleteStmts db sel).length + 1) (by omega)
  rw [List.take_of_length_le (by omega)] at h2 h3 h4
  exact ⟨h4 (by omega), h2, h3⟩

end Verif.NS
