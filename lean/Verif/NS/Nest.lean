/-
NS: nested intervals, their parents and the forest they show.
-/
import Verif.NS.Model
import Verif.ForestLemmas
import Verif.Path

namespace Verif.NS

/-- the interval of `q` encloses that of `r` -/
def encl (q r : Row) : Prop := q.tree = r.tree ∧ q.lft < r.lft ∧ r.rgt < q.rgt

instance (q r : Row) : Decidable (encl q r) := inferInstanceAs (Decidable (_ ∧ _))

theorem encl_trans {a b c : Row} (h : encl a b) (h' : encl b c) : encl a c := by
  unfold encl at *; omega

theorem encl_irrefl (a : Row) : ¬ encl a a := by unfold encl; omega

theorem encl_asymm {a b : Row} (h : encl a b) : ¬ encl b a := by unfold encl at *; omega

/-- the number of enclosing intervals -/
def above (rows : List Row) (r : Row) : Nat := rows.countP (fun q => decide (encl q r))

/-- Properly nested intervals with right depths, possibly with gaps in the numbering. -/
structure NI (rows : List Row) : Prop where
  pks : (rows.map Row.pk).Nodup
  lr : ∀ r ∈ rows, r.lft < r.rgt
  one : ∀ r ∈ rows, 1 ≤ r.lft
  tree : ∀ r ∈ rows, 1 ≤ r.tree
  dist : ∀ r ∈ rows, ∀ q ∈ rows, r ≠ q → r.tree = q.tree → r.lft ≠ q.lft ∧ r.lft ≠ q.rgt ∧ r.rgt ≠ q.rgt
  lam : ∀ r ∈ rows, ∀ q ∈ rows, r.tree = q.tree → r.lft < q.lft → q.lft < r.rgt → q.rgt < r.rgt
  root : ∀ r ∈ rows, r.lft ≠ 1 → ∃ q ∈ rows, q.lft = 1 ∧ encl q r
  depth : ∀ r ∈ rows, r.depth = 1 + (above rows r : Int)

/-- The invariant: nested, and every number between 1 and the `rgt` of the root is in use. -/
structure NInv (rows : List Row) : Prop extends NI rows where
  full : ∀ r ∈ rows, ∀ i, r.lft ≤ i → i ≤ r.rgt → ∃ q ∈ rows, q.tree = r.tree ∧ (q.lft = i ∨ q.rgt = i)

variable {rows : List Row}

theorem NI.pk_inj (h : NI rows) {a b : Row} (ha : a ∈ rows) (hb : b ∈ rows) (e : a.pk = b.pk) : a = b :=
  nodup_map_inj h.pks ha hb e

theorem NI.nodup (h : NI rows) : rows.Nodup := h.pks.of_map _

theorem NI.injOn (h : NI rows) : InjOn (· ∈ rows) Row.pk := fun _ _ ha hb e => h.pk_inj ha hb e

/-- the intervals enclosing a row form a chain -/
theorem NI.chain (h : NI rows) {a b r : Row} (ha : a ∈ rows) (hb : b ∈ rows) (hr : r ∈ rows) (h1 : encl a r)
    (h2 : encl b r) : a = b ∨ encl a b ∨ encl b a := by
  by_cases e : a = b
  · exact Or.inl e
  · right
    have ht : a.tree = b.tree := h1.1.trans h2.1.symm
    have hd := h.dist a ha b hb e ht
    have hl := h.lr r hr
    unfold encl at h1 h2
    rcases Int.lt_or_gt_of_ne hd.1 with hlt | hlt
    · exact Or.inl ⟨ht, hlt, h.lam a ha b hb ht hlt (by omega)⟩
    · exact Or.inr ⟨ht.symm, hlt, h.lam b hb a ha ht.symm hlt (by omega)⟩

/-- two rows are disjoint or nested -/
theorem NI.tri (h : NI rows) {a b : Row} (ha : a ∈ rows) (hb : b ∈ rows) (hne : a ≠ b) (ht : a.tree = b.tree) :
    encl a b ∨ encl b a ∨ a.rgt < b.lft ∨ b.rgt < a.lft := by
  have hd := h.dist a ha b hb hne ht
  have hd' := h.dist b hb a ha (Ne.symm hne) ht.symm
  have h1 := h.lr a ha
  have h2 := h.lr b hb
  have h3 := h.lam a ha b hb ht
  have h4 := h.lam b hb a ha ht.symm
  unfold encl
  omega

/-- the innermost interval around `r` -/
def Inner (rows : List Row) (p r : Row) : Prop := p ∈ rows ∧ encl p r ∧ ∀ q ∈ rows, encl q r → q = p ∨ encl q p

theorem Inner.unique {p p' r : Row} (h : Inner rows p r) (h' : Inner rows p' r) : p = p' := by
  rcases h.2.2 p' h'.1 h'.2.1 with e | e
  · exact e.symm
  · rcases h'.2.2 p h.1 h.2.1 with e' | e'
    · exact e'
    · exact absurd e (encl_asymm e')

/-! ### Order -/

/-- the order of query sets -/
def lt (a b : Row) : Prop := tlLt a b = true

theorem lt_iff {a b : Row} : lt a b ↔ a.tree < b.tree ∨ (a.tree = b.tree ∧ a.lft < b.lft) := by
  simp [lt, tlLt]

theorem lt_asymm {a b : Row} (h : lt a b) : ¬ lt b a := by rw [lt_iff] at *; omega

theorem lt_irrefl (a : Row) : ¬ lt a a := by rw [lt_iff]; omega

theorem lt_trans {a b c : Row} (h : lt a b) (h' : lt b c) : lt a c := by rw [lt_iff] at *; omega

theorem strictWeak : StrictWeak tlLt where
  total a b := by simp only [tlLt, decide_eq_false_iff_not]; omega
  trans a b c := by simp only [tlLt, decide_eq_false_iff_not]; omega

theorem NI.lt_total (h : NI rows) {a b : Row} (ha : a ∈ rows) (hb : b ∈ rows) (hne : a ≠ b) : lt a b ∨ lt b a := by
  rw [lt_iff, lt_iff]
  by_cases ht : a.tree = b.tree
  · have := (h.dist a ha b hb hne ht).1
    omega
  · omega

theorem mem_order {l : List Row} {r : Row} : r ∈ order l ↔ r ∈ l := mem_sortBy

theorem order_sorted (h : NI rows) {l : List Row} (hl : l.Sublist rows) : (order l).Pairwise lt := by
  refine sortBy_strict strictWeak (h.nodup.sublist hl) ?_
  intro a ha b hb hne
  exact h.lt_total (hl.mem ha) (hl.mem hb) hne

theorem order_filter_sorted (h : NI rows) (P : Row → Bool) : (order (rows.filter P)).Pairwise lt :=
  order_sorted h List.filter_sublist

theorem asymOn_lt (T : Row → Prop) : AsymOn T lt := fun _ _ _ _ hlt => lt_asymm hlt

/-! ### Parents -/

/-- the parent of a row, found as `get_parent` finds it -/
def par (rows : List Row) (r : Row) : Option Nat :=
  ((order (rows.filter (fun q => decide (encl q r)))).getLast?).map Row.pk

theorem getLast?_max {ρ : Type} {R : ρ → ρ → Prop} {l : List ρ} (h : l.Pairwise R) {z : ρ} (hz : l.getLast? = some z) :
    z ∈ l ∧ ∀ a ∈ l, a = z ∨ R a z := by
  obtain ⟨l', rfl⟩ := List.getLast?_eq_some_iff.1 hz
  refine ⟨by simp, ?_⟩
  rw [List.pairwise_append] at h
  intro a ha
  rcases List.mem_append.1 ha with ha | ha
  · exact Or.inr (h.2.2 a ha z (by simp))
  · exact Or.inl (by simpa using ha)

theorem inner_of_last (h : NI rows) {r z : Row} (hr : r ∈ rows)
    (hz : (order (rows.filter (fun q => decide (encl q r)))).getLast? = some z) : Inner rows z r := by
  obtain ⟨hm, hmax⟩ := getLast?_max (order_filter_sorted h _) hz
  have hm := List.mem_filter.1 (mem_order.1 hm)
  have he : encl z r := by simpa using hm.2
  refine ⟨hm.1, he, ?_⟩
  intro q hq hqr
  rcases hmax q (mem_order.2 (List.mem_filter.2 ⟨hq, by simpa using hqr⟩)) with e | e
  · exact Or.inl e
  · rcases h.chain hq hm.1 hr hqr he with e' | e' | e'
    · exact Or.inl e'
    · exact Or.inr e'
    · rw [lt_iff] at e
      unfold encl at e'
      omega

theorem par_cases (h : NI rows) {r : Row} (hr : r ∈ rows) :
    (par rows r = none ∧ ∀ q ∈ rows, ¬ encl q r) ∨ ∃ p, Inner rows p r ∧ par rows r = some p.pk := by
  unfold par
  cases hz : (order (rows.filter (fun q => decide (encl q r)))).getLast? with
  | none =>
    left
    refine ⟨rfl, ?_⟩
    intro q hq he
    rw [List.getLast?_eq_none_iff] at hz
    have : q ∈ order (rows.filter (fun q => decide (encl q r))) := mem_order.2 (List.mem_filter.2 ⟨hq, by simpa using he⟩)
    rw [hz] at this
    simp at this
  | some z => exact Or.inr ⟨z, inner_of_last h hr hz, rfl⟩

theorem par_of_inner (h : NI rows) {p r : Row} (hr : r ∈ rows) (hi : Inner rows p r) : par rows r = some p.pk := by
  rcases par_cases h hr with ⟨_, hn⟩ | ⟨p', hi', e⟩
  · exact absurd hi.2.1 (hn p hi.1)
  · rw [e, hi'.unique hi]

theorem par_eq_some (h : NI rows) {r : Row} (hr : r ∈ rows) {k : Nat} :
    par rows r = some k ↔ ∃ p, Inner rows p r ∧ p.pk = k := by
  constructor
  · intro e
    rcases par_cases h hr with ⟨e', _⟩ | ⟨p, hi, e'⟩
    · rw [e] at e'; cases e'
    · rw [e] at e'; exact ⟨p, hi, (Option.some.inj e').symm⟩
  · rintro ⟨p, hi, rfl⟩; exact par_of_inner h hr hi

theorem par_row (h : NI rows) {p r : Row} (hp : p ∈ rows) (hr : r ∈ rows) : par rows r = some p.pk ↔ Inner rows p r := by
  rw [par_eq_some h hr]
  constructor
  · rintro ⟨p', hi, e⟩; rwa [← h.pk_inj hi.1 hp e]
  · intro hi; exact ⟨p, hi, rfl⟩

theorem par_eq_none (h : NI rows) {r : Row} (hr : r ∈ rows) : par rows r = none ↔ r.lft = 1 := by
  constructor
  · intro e
    by_contra hl
    obtain ⟨q, hq, _, he⟩ := h.root r hr hl
    rcases par_cases h hr with ⟨_, hn⟩ | ⟨p, _, e'⟩
    · exact hn q hq he
    · rw [e] at e'; cases e'
  · intro hl
    rcases par_cases h hr with ⟨e, _⟩ | ⟨p, hi, _⟩
    · exact e
    · have := h.one p hi.1
      have := hi.2.1
      unfold encl at this
      omega

/-! ### The forest -/

/-- the forest of the rows -/
def PF (rows : List Row) : Forest := fun p => (order (rows.filter (fun r => par rows r == p))).map Row.pk

theorem shows_PF (h : NI rows) : Shows (PF rows) (· ∈ rows) Row.pk (par rows) lt := by
  refine ⟨fun p => ⟨order (rows.filter (fun r => par rows r == p)), rfl, order_filter_sorted h _, ?_⟩⟩
  intro r
  rw [mem_order, List.mem_filter]
  simp

theorem mem_PF (h : NI rows) {p : Option Nat} {k : Nat} : k ∈ PF rows p ↔ ∃ r ∈ rows, par rows r = p ∧ r.pk = k :=
  (shows_PF h).mem

/-- the stored data: keys and other fields -/
def data (rows : List Row) : List (Nat × Vals) := rows.map (fun r => (r.pk, r.vals))

/-- a list of rows with the right order and members is the list of children -/
theorem list_PF (h : NI rows) {l : List Row} {p : Option Nat} (hs : l.Pairwise lt)
    (hm : ∀ r, r ∈ l ↔ r ∈ rows ∧ par rows r = p) : l.map Row.pk = PF rows p := by
  obtain ⟨l', e, s', m'⟩ := (shows_PF h).lists p
  rw [e]
  congr 1
  exact sorted_unique (T := fun _ => True) (asymOn_lt _) (by simp) hs s' (fun r => by rw [hm, m'])

/-! ### Depths -/

theorem above_inner (h : NI rows) {p r : Row} (hi : Inner rows p r) : above rows r = above rows p + 1 := by
  have hn := h.nodup
  unfold above
  have : rows.countP (fun q => decide (encl q r)) = rows.countP (fun q => decide (q = p) || decide (encl q p)) := by
    apply List.countP_congr
    intro q hq
    simp only [decide_eq_true_eq, Bool.or_eq_true]
    constructor
    · exact fun he => hi.2.2 q hq he
    · rintro (rfl | he)
      · exact hi.2.1
      · exact encl_trans he hi.2.1
  rw [this]
  have h1 := List.countP_eq_countP_filter_add rows (fun q => decide (q = p) || decide (encl q p)) (fun q => decide (q = p))
  rw [h1, List.countP_filter, List.countP_filter]
  have e1 : rows.countP (fun a => (decide (a = p) || decide (encl a p)) && decide (a = p)) = 1 := by
    rw [show (fun a => (decide (a = p) || decide (encl a p)) && decide (a = p)) = (fun a => a == p) from ?_]
    · have := List.nodup_iff_count_eq_one.1 hn p hi.1
      rwa [List.count] at this
    · funext a
      by_cases e : a = p <;> simp [e]
  have e2 : rows.countP (fun a => (decide (a = p) || decide (encl a p)) && !decide (a = p)) = rows.countP (fun q => decide (encl q p)) := by
    apply List.countP_congr
    intro q _
    by_cases e : q = p
    · subst e; simp [encl_irrefl]
    · simp [e]
  rw [e1, e2]; omega

theorem NI.depth_inner (h : NI rows) {p r : Row} (hi : Inner rows p r) (hr : r ∈ rows) : r.depth = p.depth + 1 := by
  rw [h.depth r hr, h.depth p hi.1, above_inner h hi]; omega

theorem above_root (h : NI rows) {r : Row} (hl : r.lft = 1) : above rows r = 0 := by
  unfold above
  rw [List.countP_eq_zero]
  intro q hq
  simp only [decide_eq_true_eq]
  intro he
  have := h.one q hq
  unfold encl at he
  omega

theorem NI.depth_root (h : NI rows) {r : Row} (hr : r ∈ rows) (hl : r.lft = 1) : r.depth = 1 := by
  rw [h.depth r hr, above_root h hl]; rfl

theorem NI.depth_lt (h : NI rows) {a b : Row} (ha : a ∈ rows) (hb : b ∈ rows) (he : encl a b) : a.depth < b.depth := by
  rw [h.depth a ha, h.depth b hb]
  have : above rows a < above rows b := by
    unfold above
    have h1 : rows.countP (fun q => decide (encl q a)) ≤ rows.countP (fun q => decide (encl q b) && !decide (q = a)) := by
      apply List.countP_mono_left
      intro q _ hq
      simp only [decide_eq_true_eq, Bool.and_eq_true, Bool.not_eq_true', decide_eq_false_iff_not] at *
      exact ⟨encl_trans hq he, by rintro rfl; exact encl_irrefl _ hq⟩
    have h2 := List.countP_eq_countP_filter_add rows (fun q => decide (encl q b)) (fun q => decide (q = a))
    rw [List.countP_filter, List.countP_filter] at h2
    have h3 : 0 < rows.countP (fun q => decide (encl q b) && decide (q = a)) := by
      rw [List.countP_pos_iff]
      exact ⟨a, ha, by simp [he]⟩
    omega
  omega

/-- a descendant one level below is a child -/
theorem NI.inner_iff (h : NI rows) {p r : Row} (hp : p ∈ rows) (hr : r ∈ rows) :
    Inner rows p r ↔ encl p r ∧ r.depth = p.depth + 1 := by
  constructor
  · intro hi; exact ⟨hi.2.1, h.depth_inner hi hr⟩
  · rintro ⟨he, hd⟩
    refine ⟨hp, he, ?_⟩
    intro q hq hqr
    rcases h.chain hq hp hr hqr he with e | e | e
    · exact Or.inl e
    · exact Or.inr e
    · have h1 := h.depth_lt hp hq e
      have h2 := h.depth_lt hq hr hqr
      omega

end Verif.NS
