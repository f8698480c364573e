/-
NS: what the position names are resolved to.
-/
import Verif.NS.Query
import Verif.NS.Place
import Verif.SpecHistory
import Verif.PosLemmas
import Verif.SpecSorted

namespace Verif.NS

variable {db : DB} {rows : List Row}

/-! ### The first and last of a sorted list -/

theorem head?_min {ρ : Type} {R : ρ → ρ → Prop} {l : List ρ} (h : l.Pairwise R) {z : ρ} (hz : l.head? = some z) :
    z ∈ l ∧ ∀ a ∈ l, a = z ∨ R z a := by
  cases l with
  | nil => simp at hz
  | cons b l =>
    simp only [List.head?_cons, Option.some.injEq] at hz
    subst hz
    rw [List.pairwise_cons] at h
    refine ⟨by simp, ?_⟩
    intro a ha
    rcases List.mem_cons.1 ha with e | ha
    · exact Or.inl e
    · exact Or.inr (h.1 a ha)

theorem sameNode_head {l : List Row} (h : NI rows) (hl : ∀ r ∈ l, r ∈ rows) (hs : l.Pairwise lt) {t : Row} (ht : t ∈ rows)
    (e : sameNode t l.head? = true) : ∀ r ∈ l, ¬ lt r t := by
  cases hh : l.head? with
  | none => rw [hh] at e; simp [sameNode] at e
  | some z =>
    rw [hh] at e
    obtain ⟨hz, hmin⟩ := head?_min hs hh
    have : t = z := h.pk_inj ht (hl z hz) (by simpa [sameNode] using e)
    subst this
    intro r hr hlt
    rcases hmin r hr with rfl | e
    · exact lt_irrefl _ hlt
    · exact lt_asymm hlt e

theorem sameNode_last {l : List Row} (h : NI rows) (hl : ∀ r ∈ l, r ∈ rows) (hs : l.Pairwise lt) {t : Row} (ht : t ∈ rows)
    (e : sameNode t l.getLast? = true) : ∀ r ∈ l, ¬ lt t r := by
  cases hh : l.getLast? with
  | none => rw [hh] at e; simp [sameNode] at e
  | some z =>
    rw [hh] at e
    obtain ⟨hz, hmax⟩ := getLast?_max hs hh
    have : t = z := h.pk_inj ht (hl z hz) (by simpa [sameNode] using e)
    subst this
    intro r hr hlt
    rcases hmax r hr with rfl | e
    · exact lt_irrefl _ hlt
    · exact lt_asymm hlt e

theorem nextAfter_spec (h : NI rows) {l : List Row} (hl : ∀ r ∈ l, r ∈ rows) (hs : l.Pairwise lt) {t : Row} (ht : t ∈ l)
    (hlast : sameNode t l.getLast? = false) :
    nextAfter t l ∈ l ∧ lt t (nextAfter t l) ∧ ∀ r ∈ l, lt t r → ¬ lt r (nextAfter t l) := by
  induction l with
  | nil => simp at ht
  | cons a l ih =>
    cases l with
    | nil =>
      simp only [List.mem_singleton] at ht
      subst ht
      simp [sameNode] at hlast
    | cons b rest =>
      unfold nextAfter
      have hs' := hs
      rw [List.pairwise_cons] at hs
      by_cases e : a.pk = t.pk
      · have : a = t := h.pk_inj (hl a (by simp)) (hl t ht) e
        subst this
        simp only [beq_self_eq_true, if_true]
        refine ⟨by simp, hs.1 b (by simp), ?_⟩
        intro r hr hlt hlt'
        rw [List.pairwise_cons] at hs
        rcases List.mem_cons.1 hr with rfl | hr
        · exact lt_irrefl _ hlt
        · rcases List.mem_cons.1 hr with rfl | hr
          · exact lt_irrefl _ hlt'
          · exact lt_asymm hlt' (hs.2.1 r hr)
      · simp only [beq_iff_eq, e, if_false]
        have ht' : t ∈ b :: rest := by
          rcases List.mem_cons.1 ht with rfl | ht
          · exact absurd rfl e
          · exact ht
        obtain ⟨h1, h2, h3⟩ := ih (fun r hr => hl r (by simp [hr])) hs.2 ht' (by rwa [List.getLast?_cons_cons] at hlast)
        refine ⟨by simp [h1], h2, ?_⟩
        intro r hr hlt
        rcases List.mem_cons.1 hr with rfl | hr
        · exact absurd hlt (lt_asymm (hs.1 t ht'))
        · exact h3 r hr hlt

/-! ### Places -/

/-- the place is just before the sibling `t'` of `t` -/
def BeforeRow (rows : List Row) (P : Option Nat) (t' : Row) (T l : Int) : Prop :=
  ∀ r ∈ rows, par rows r = P → (lt r t' → befH T l r) ∧ (¬ lt r t' → aftP T l r)

/-- the place is after all the siblings -/
def AtEnd (rows : List Row) (P : Option Nat) (T l : Int) : Prop := ∀ r ∈ rows, par rows r = P → befH T l r

/-- what `pos` relative to `t` is resolved to -/
structure Resolved (rows : List Row) (t : Row) (pos pos' : Pos) (t' : Row) : Prop where
  mem : t' ∈ rows
  par : NS.par rows t' = NS.par rows t
  cases : (pos' = .lastSibling ∧ t' = t ∧
      (pos = .lastSibling ∨ (pos = .right ∧ ∀ r ∈ rows, NS.par rows r = NS.par rows t → ¬ lt t r))) ∨
    ((pos' = .left ∨ (pos' = .firstSibling ∧ ∀ r ∈ rows, NS.par rows r = NS.par rows t → ¬ lt r t')) ∧
      ((pos = .firstSibling ∧ ∀ r ∈ rows, NS.par rows r = NS.par rows t → ¬ lt r t') ∨ (pos = .left ∧ t' = t) ∨
       (pos = .right ∧ lt t t' ∧ ∀ r ∈ rows, NS.par rows r = NS.par rows t → lt t r → ¬ lt r t')))

theorem resolvePos_spec (h : NI db.rows) {t : Row} (ht : t ∈ db.rows) {pos : Pos} (hpos : IsSibPos pos) :
    ∃ pos' t', resolvePos db pos t = .ok (pos', t') ∧ Resolved db.rows t pos pos' t' := by
  obtain ⟨l, hl, hs, hm, _⟩ := siblings_spec h ht
  have hlr : ∀ r ∈ l, r ∈ db.rows := fun r hr => ((hm r).1 hr).1
  have htl : t ∈ l := (hm t).2 ⟨ht, rfl⟩
  obtain ⟨z, hz⟩ : ∃ z, l.head? = some z := by
    cases hh : l.head? with
    | none => rw [List.head?_eq_none_iff] at hh; rw [hh] at htl; simp at htl
    | some z => exact ⟨z, rfl⟩
  obtain ⟨hzl, hzmin⟩ := head?_min hs hz
  have hzm := (hm z).1 hzl
  have hzmin' : ∀ r ∈ db.rows, par db.rows r = par db.rows t → ¬ lt r z := by
    intro r hr hp hlt
    rcases hzmin r ((hm r).2 ⟨hr, hp⟩) with rfl | e
    · exact lt_irrefl _ hlt
    · exact lt_asymm hlt e
  unfold resolvePos
  rcases hpos with rfl | rfl | rfl | rfl
  · -- first-sibling
    rw [if_pos (by decide), hl]
    refine ⟨.firstSibling, z, ?_, hzm.1, hzm.2, Or.inr ⟨Or.inr ⟨rfl, hzmin'⟩, Or.inl ⟨rfl, hzmin'⟩⟩⟩
    simp [hz]
  · -- left
    rw [if_pos (by decide), hl]
    by_cases e : sameNode t l.head? = true
    · refine ⟨.firstSibling, z, ?_, hzm.1, hzm.2, Or.inr ⟨Or.inr ⟨rfl, hzmin'⟩, Or.inr (Or.inl ⟨rfl, ?_⟩)⟩⟩
      · rw [hz] at e; simp [e, hz]
      · rw [hz] at e
        have : t.pk = z.pk := by simpa [sameNode] using e
        exact h.pk_inj hzm.1 ht this.symm
    · refine ⟨.left, t, ?_, ht, rfl, Or.inr ⟨Or.inl rfl, Or.inr (Or.inl ⟨rfl, rfl⟩)⟩⟩
      simp [e]
  · -- right
    rw [if_pos (by decide), hl]
    by_cases e : sameNode t l.getLast? = true
    · refine ⟨.lastSibling, t, ?_, ht, rfl, Or.inl ⟨rfl, rfl, Or.inr ⟨rfl, ?_⟩⟩⟩
      · simp [e]
      · intro r hr hp; exact sameNode_last h hlr hs ht e r ((hm r).2 ⟨hr, hp⟩)
    · have e : sameNode t l.getLast? = false := by simpa using e
      obtain ⟨h1, h2, h3⟩ := nextAfter_spec h hlr hs htl e
      have hne : sameNode (nextAfter t l) l.head? = false := by
        rw [← Bool.not_eq_true]
        intro e'
        exact sameNode_head h hlr hs (hlr _ h1) e' t htl h2
      refine ⟨.left, nextAfter t l, ?_, hlr _ h1, ((hm _).1 h1).2, Or.inr ⟨Or.inl rfl, Or.inr (Or.inr ⟨rfl, h2, ?_⟩)⟩⟩
      · simp [e, hne]
      · intro r hr hp; exact h3 r ((hm r).2 ⟨hr, hp⟩)
  · -- last-sibling
    refine ⟨.lastSibling, t, ?_, ht, rfl, Or.inl ⟨rfl, rfl, Or.inl rfl⟩⟩
    rw [if_neg (by decide)]

/-- every place is some slot -/
theorem exists_slot (h : NI rows) (R : Row → Prop) [DecidablePred R] (P : Option Nat) (T l : Int) : ∃ s, PSlot rows R P T l s := by
  have hdec : ∀ r, befH T l r ∨ aftP T l r := by intro r; unfold befH aftP; omega
  have hinst : DecidablePred (aftP T l) := fun r => by unfold aftP; infer_instance
  cases e : (order (rows.filter (fun r => decide (R r) && decide (par rows r = P) && decide (aftP T l r)))).head? with
  | none =>
    refine ⟨.last, ?_⟩
    intro r hr hR hp
    rcases hdec r with hb | ha
    · exact hb
    · rw [List.head?_eq_none_iff] at e
      have : r ∈ order (rows.filter (fun r => decide (R r) && decide (par rows r = P) && decide (aftP T l r))) :=
        mem_order.2 (List.mem_filter.2 ⟨hr, by simp [hR, hp, ha]⟩)
      rw [e] at this; simp at this
  | some z =>
    obtain ⟨hz, hmin⟩ := head?_min (order_filter_sorted h _) e
    have hz' := List.mem_filter.1 (mem_order.1 hz)
    simp only [Bool.and_eq_true, decide_eq_true_eq] at hz'
    refine ⟨.before z.pk, z, hz'.1, hz'.2.1.1, rfl, hz'.2.1.2, hz'.2.2, ?_⟩
    intro r hr hR hp hlt
    rcases hdec r with hb | ha
    · exact hb
    · rcases hmin r (mem_order.2 (List.mem_filter.2 ⟨hr, by simp [hR, hp, ha]⟩)) with rfl | e
      · exact absurd hlt (lt_irrefl _)
      · exact absurd hlt (lt_asymm e)

theorem pslot_end {P : Option Nat} {T l : Int} (he : AtEnd rows P T l) (R : Row → Prop) : PSlot rows R P T l .last :=
  fun r hr _ hp => he r hr hp

theorem pslot_before {P : Option Nat} {T l : Int} {t' : Row} (hb : BeforeRow rows P t' T l) {R : Row → Prop} (ht' : t' ∈ rows)
    (hR : R t') (hp : par rows t' = P) : PSlot rows R P T l (.before t'.pk) :=
  ⟨t', ht', hR, rfl, hp, (hb t' ht' hp).2 (lt_irrefl _), fun r hr _ hp hlt => (hb r hr hp).1 hlt⟩

/-- the slot that an unsorted position is resolved to, for a target that stays -/
theorem Resolved.slot {t t' : Row} {pos pos' : Pos} (hr : Resolved rows t pos pos' t') (ht : t ∈ rows) {T l : Int} {R : Row → Prop}
    (hR : R t ∨ pos = .firstSibling ∨ pos = .lastSibling)
    (hend : pos' = .lastSibling → AtEnd rows (NS.par rows t) T l)
    (hbef : pos' = .left ∨ pos' = .firstSibling → BeforeRow rows (NS.par rows t) t' T l) :
    PSlot rows R (NS.par rows t) T l (sibAsked t.pk pos) := by
  have hRt : ∀ {pos' : Pos}, pos = pos' → (pos' ≠ .firstSibling ∧ pos' ≠ .lastSibling) → R t := by
    rintro _ rfl hn
    rcases hR with h | h | h
    · exact h
    · exact absurd h hn.1
    · exact absurd h hn.2
  rcases hr.cases with ⟨e, rfl, rfl | ⟨rfl, hmax⟩⟩ | ⟨e, ⟨rfl, hmin⟩ | ⟨rfl, rfl⟩ | ⟨rfl, h1, h2⟩⟩
  · exact pslot_end (hend e) R
  · refine ⟨t', ht, hRt rfl (by decide), rfl, rfl, hend e t' ht rfl, ?_⟩
    intro r hr' _ hp hlt
    exact absurd hlt (hmax r hr' hp)
  · intro r hr' _ hp
    exact (hbef (e.imp id (·.1)) r hr' hp).2 (hmin r hr' hp)
  · exact pslot_before (hbef (e.imp id (·.1))) ht (hRt rfl (by decide)) rfl
  · have hb := hbef (e.imp id (·.1))
    refine ⟨t, ht, hRt rfl (by decide), rfl, rfl, (hb t ht rfl).1 h1, ?_⟩
    intro r hr' _ hp hlt
    exact (hb r hr' hp).2 (h2 r hr' hp hlt)

/-! ### The places of the code -/

/-- before the left end of `t'` -/
theorem beforeRow_lft {P : Option Nat} (t' : Row) : BeforeRow rows P t' t'.tree t'.lft := by
  intro r _ _
  rw [lt_iff]
  unfold befH aftP
  omega

/-- before all roots -/
theorem beforeRow_first (h : NI rows) {P : Option Nat} {t' : Row} (hmin : ∀ r ∈ rows, par rows r = P → ¬ lt r t') :
    BeforeRow rows P t' 1 1 := by
  intro r hr hp
  refine ⟨fun hlt => absurd hlt (hmin r hr hp), fun _ => ?_⟩
  have := h.tree r hr
  have := h.one r hr
  unfold aftP
  omega

/-- the right end of the parent -/
theorem atEnd_rgt (h : NI rows) {p : Row} (hp : p ∈ rows) : AtEnd rows (some p.pk) p.tree p.rgt := by
  intro r hr hpar
  have hi := (par_row h hp hr).1 hpar
  have he := hi.2.1
  have := h.lr r hr
  unfold encl at he
  unfold befH
  omega

theorem inner_at_rgt (h : NI rows) {q : Row} (hq : q ∈ rows) :
    ∀ q' ∈ rows, q'.tree = q.tree → q'.lft < q.rgt → q.rgt ≤ q'.rgt → q' = q ∨ encl q' q := by
  intro q' hq' ht h1 h2
  by_cases e : q' = q
  · exact Or.inl e
  · right
    have hd := h.dist q' hq' q hq e ht
    have hl := h.lr q hq
    rcases h.tri hq' hq e ht with e' | e' | e' | e'
    · exact e'
    · unfold encl at e'; omega
    · omega
    · omega

theorem inner_at_lft (h : NI rows) {p t : Row} (hp : Inner rows p t) (ht : t ∈ rows) :
    ∀ q' ∈ rows, q'.tree = p.tree → q'.lft < t.lft → t.lft ≤ q'.rgt → q' = p ∨ encl q' p := by
  intro q' hq' htr h1 h2
  refine hp.2.2 q' hq' ?_
  have he := hp.2.1
  unfold encl at he
  have hne : q' ≠ t := by rintro rfl; omega
  have hd := h.dist t ht q' hq' (Ne.symm hne) (by omega)
  exact ⟨by omega, h1, h.lam q' hq' t ht (by omega) h1 (by omega)⟩

/-- opening the gap at the right end of `q` -/
theorem opened_rgt (h : NI rows) {q : Row} (hq : q ∈ rows) {g : Int} (hg : 0 < g) :
    Opened rows (gapRow q.tree q.rgt g) q.tree q.rgt g (some q) :=
  opened_gap h hq hg (h.lr q hq) (Int.le_refl _) (inner_at_rgt h hq)

/-- opening the gap at the left end of a child `t` of `p` -/
theorem opened_lft (h : NI rows) {p t : Row} (hp : Inner rows p t) (ht : t ∈ rows) {g : Int} (hg : 0 < g) :
    Opened rows (gapRow t.tree t.lft g) t.tree t.lft g (some p) := by
  have he := hp.2.1
  have := h.lr t ht
  unfold encl at he
  have := opened_gap h hp.1 (l := t.lft) hg (by omega) (by omega) (inner_at_lft h hp ht)
  rwa [he.1] at this

/-! ### Sorted positions -/

theorem sortedPos_head {ob : List (Nat × Bool)} {vals : Vals} {l : List Row} {z : Row}
    (h : (sortedPosQueryset ob Row.vals l vals).head? = some z) : z ∈ l :=
  (sortedPos_sublist ob Row.vals l vals).mem (List.mem_of_mem_head? h)

theorem resolveSorted_spec (h : NI db.rows) {t : Row} (ht : t ∈ db.rows) {cfg : Cfg} {vals : Vals} :
    ∃ l, siblings db t = .ok l ∧
    ∃ pos' t', resolveSorted cfg db .sortedSibling t vals = .ok (pos', t') ∧ t' ∈ db.rows ∧ par db.rows t' = par db.rows t ∧
      ((pos' = .left ∧ (sortedPosQueryset cfg.orderBy Row.vals l vals).head? = some t') ∨
       (pos' = .lastSibling ∧ t' = t ∧ (sortedPosQueryset cfg.orderBy Row.vals l vals).head? = none)) := by
  obtain ⟨l, hl, hs, hm, _⟩ := siblings_spec h ht
  refine ⟨l, hl, ?_⟩
  unfold resolveSorted
  rw [if_pos rfl, hl]
  simp only
  cases e : (sortedPosQueryset cfg.orderBy Row.vals l vals).head? with
  | none => exact ⟨.lastSibling, t, rfl, ht, rfl, Or.inr ⟨rfl, rfl, rfl⟩⟩
  | some z =>
    have hz := (hm z).1 (sortedPos_head e)
    exact ⟨.left, z, rfl, hz.1, hz.2, Or.inl ⟨rfl, rfl⟩⟩

end Verif.NS
