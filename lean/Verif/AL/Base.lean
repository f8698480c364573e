/-
AL: the invariant and the forest of a table.
-/
import Verif.AL.Model
import Verif.Nav
import Verif.SortedHead

namespace Verif

/-- insertion sort on elements among which the order is weak -/
theorem sortBy_sorted_on {ρ : Type} {lt : ρ → ρ → Bool} {l : List ρ} (hasym : ∀ a ∈ l, ∀ b ∈ l, lt a b = true → lt b a = false)
    (htrans : ∀ a ∈ l, ∀ b ∈ l, ∀ c ∈ l, lt b a = false → lt c b = false → lt c a = false) :
    (sortBy lt l).Pairwise (fun a b => lt b a = false) := by
  unfold sortBy
  induction l with
  | nil => exact List.Pairwise.nil
  | cons a l ih =>
    rw [List.insertionSort_cons]
    have ih := ih (fun a ha b hb => hasym a (by simp [ha]) b (by simp [hb]))
      (fun a ha b hb c hc => htrans a (by simp [ha]) b (by simp [hb]) c (by simp [hc]))
    have hm : ∀ b ∈ List.insertionSort (fun a b => lt b a = false) l, b ∈ l := fun b hb => mem_sortBy.1 hb
    generalize List.insertionSort (fun a b => lt b a = false) l = m at ih hm
    induction m with
    | nil => simp
    | cons b m ihm =>
      rw [List.pairwise_cons] at ih
      rw [List.orderedInsert_cons]
      have hb : b ∈ l := hm b (by simp)
      split
      · rename_i hab
        rw [List.pairwise_cons]
        refine ⟨?_, List.pairwise_cons.2 ih⟩
        intro c hc
        rcases List.mem_cons.1 hc with rfl | hc
        · exact hab
        · exact htrans a (by simp) b (by simp [hb]) c (by simp [hm c (by simp [hc])]) hab (ih.1 c hc)
      · rename_i hab
        rw [List.pairwise_cons]
        refine ⟨?_, ihm ih.2 (fun c hc => hm c (by simp [hc]))⟩
        intro c hc
        rw [List.mem_orderedInsert] at hc
        rcases hc with rfl | hc
        · exact hasym _ (by simp [hb]) _ (by simp) (by simpa using hab)
        · exact ih.1 c hc

namespace AL

variable {cfg : Cfg} {db : DB} {rows : List Row}

/-- the order of siblings -/
def lt (cfg : Cfg) (a b : Row) : Prop := ltB cfg a b = true

theorem keyLtB_iff {ob : List (Nat × Bool)} {a b : Vals} : keyLtB ob a b = true ↔ keyLt ob a b := by
  induction ob with
  | nil => simp [keyLtB, keyLt]
  | cons e ob ih =>
    obtain ⟨f, d⟩ := e
    unfold keyLtB keyLt
    rw [Bool.or_eq_true, Bool.and_eq_true, beq_iff_eq, ih]
    have : fieldLtB d (fieldOf a f) (fieldOf b f) = true ↔ fieldLt d (fieldOf a f) (fieldOf b f) := by
      generalize fieldOf a f = x
      generalize fieldOf b f = y
      cases x <;> cases y <;> cases d <;> simp [fieldLtB, fieldLt]
    rw [this]

theorem lt_ordered (ho : cfg.ordered = true) {a b : Row} : lt cfg a b ↔ keyLt cfg.orderBy a.vals b.vals := by
  unfold lt ltB
  rw [ho, if_pos rfl, keyLtB_iff]

theorem lt_plain (ho : cfg.ordered = false) {a b : Row} : lt cfg a b ↔ a.sib < b.sib := by
  unfold lt ltB
  rw [ho]
  simp

theorem fieldLt_trans {d : Bool} {a b c : Option Int} (h1 : fieldLt d a b) (h2 : fieldLt d b c) : fieldLt d a c := by
  unfold fieldLt at *
  cases a <;> cases b <;> cases c <;> simp_all
  split at h1 <;> simp_all <;> omega

theorem keyLt_trans {ob : List (Nat × Bool)} {a b c : Vals} (h1 : keyLt ob a b) (h2 : keyLt ob b c) : keyLt ob a c := by
  induction ob with
  | nil => exact h1
  | cons e ob ih =>
    obtain ⟨f, d⟩ := e
    rw [keyLt_cons] at *
    rcases h1 with h1 | ⟨e1, h1⟩ <;> rcases h2 with h2 | ⟨e2, h2⟩
    · exact Or.inl (fieldLt_trans h1 h2)
    · exact Or.inl (e2 ▸ h1)
    · exact Or.inl (e1 ▸ h2)
    · exact Or.inr ⟨e1.trans e2, ih h1 h2⟩

theorem lt_asymm {a b : Row} (h : lt cfg a b) : ¬ lt cfg b a := by
  cases ho : cfg.ordered with
  | true => rw [lt_ordered ho] at *; exact keyLt_asymm h
  | false => rw [lt_plain ho] at *; omega

theorem lt_irrefl (a : Row) : ¬ lt cfg a a := fun h => lt_asymm h h

theorem lt_trans {a b c : Row} (h1 : lt cfg a b) (h2 : lt cfg b c) : lt cfg a c := by
  cases ho : cfg.ordered with
  | true => rw [lt_ordered ho] at *; exact keyLt_trans h1 h2
  | false => rw [lt_plain ho] at *; omega

/-- Parents exist, keys are unique, no cycles. -/
structure AI (rows : List Row) : Prop where
  pks : (rows.map Row.pk).Nodup
  exist : ∀ r ∈ rows, ∀ p, r.parent = some p → ∃ q ∈ rows, q.pk = p
  rank : ∃ rank : Nat → Nat, ∀ r ∈ rows, ∀ p, r.parent = some p → rank p < rank r.pk

/-- ... and siblings can be told apart by the order. -/
structure AInv (cfg : Cfg) (rows : List Row) : Prop extends AI rows where
  sib : cfg.ordered = false → ∀ r ∈ rows, 1 ≤ r.sib
  comp : ∀ a ∈ rows, ∀ b ∈ rows, a ≠ b → a.parent = b.parent → lt cfg a b ∨ lt cfg b a

theorem AI.pk_inj (h : AI rows) {a b : Row} (ha : a ∈ rows) (hb : b ∈ rows) (e : a.pk = b.pk) : a = b :=
  List.inj_on_of_nodup_map h.pks ha hb e

theorem get?_eq_some (h : AI db.rows) {k : Nat} {r : Row} : db.get? k = some r ↔ r ∈ db.rows ∧ r.pk = k := by
  unfold DB.get?
  constructor
  · intro e
    have h1 := List.find?_some e
    exact ⟨List.mem_of_find?_eq_some e, by simpa using h1⟩
  · rintro ⟨hr, rfl⟩
    cases e : db.rows.find? (fun q => q.pk == r.pk) with
    | none =>
      rw [List.find?_eq_none] at e
      exact absurd (by simp) (e r hr)
    | some q =>
      have h1 := List.find?_some e
      have h2 := List.mem_of_find?_eq_some e
      rw [h.pk_inj h2 hr (by simpa using h1)]

theorem get?_eq_none {k : Nat} : db.get? k = none ↔ ∀ r ∈ db.rows, r.pk ≠ k := by
  unfold DB.get?
  rw [List.find?_eq_none]
  simp

theorem mem_order {l : List Row} {r : Row} : r ∈ order cfg l ↔ r ∈ l := by
  unfold order
  rw [mem_sortBy, (cfg.ties_perm l).mem_iff]

theorem order_perm (l : List Row) : (order cfg l).Perm l := (sortBy_perm _ _).trans (cfg.ties_perm l)

theorem mem_withParent {p : Option Nat} {r : Row} : r ∈ withParent db p ↔ r ∈ db.rows ∧ r.parent = p := by
  unfold withParent
  rw [List.mem_filter, beq_iff_eq]

theorem rows_nodup (h : AI rows) : rows.Nodup := List.Nodup.of_map _ h.pks

theorem order_sorted (h : AInv cfg db.rows) (p : Option Nat) : (order cfg (withParent db p)).Pairwise (lt cfg) := by
  have hc : ∀ a ∈ cfg.ties (withParent db p), ∀ b ∈ cfg.ties (withParent db p), a ≠ b → lt cfg a b ∨ lt cfg b a := by
    intro a ha b hb hne
    rw [(cfg.ties_perm _).mem_iff, mem_withParent] at ha hb
    exact h.comp a ha.1 b hb.1 hne (ha.2.trans hb.2.symm)
  have h1 : (order cfg (withParent db p)).Pairwise (fun a b => ltB cfg b a = false) := by
    refine sortBy_sorted_on ?_ ?_
    · intro a _ b _ hab
      exact Bool.eq_false_iff.2 (lt_asymm (cfg := cfg) hab)
    · intro a ha b hb c hc' h1 h2
      have h3 := hc a ha b hb
      have h4 := hc b hb c hc'
      by_cases e1 : a = b
      · subst e1; exact h2
      by_cases e2 : b = c
      · subst e2; exact h1
      have h5 := (h3 e1).resolve_right (by unfold lt; simp [h1])
      have h6 := (h4 e2).resolve_right (by unfold lt; simp [h2])
      exact Bool.eq_false_iff.2 (lt_asymm (lt_trans h5 h6))
  have h2 : (order cfg (withParent db p)).Nodup := (order_perm _).nodup_iff.2 ((rows_nodup h.toAI).filter _)
  refine (h1.and h2).imp_of_mem ?_
  rintro a b ha hb ⟨hab, hne⟩
  rw [mem_order, ← (cfg.ties_perm _).mem_iff] at ha hb
  exact (hc a ha b hb hne).resolve_right (by unfold lt; simp [hab])

/-- the forest, from the parent links -/
def PF (cfg : Cfg) (rows : List Row) : Forest := fun p => (order cfg (withParent ⟨rows⟩ p)).map Row.pk

theorem mem_PF {p : Option Nat} {k : Nat} : k ∈ PF cfg rows p ↔ ∃ r ∈ rows, r.parent = p ∧ r.pk = k := by
  unfold PF
  rw [List.mem_map]
  simp only [mem_order, mem_withParent, and_assoc]

theorem forest_eq (h : AI db.rows) : forest cfg db = PF cfg db.rows := by
  funext p
  cases p with
  | none => rfl
  | some k =>
    unfold forest
    simp only
    cases e : db.get? k with
    | none =>
      simp only
      symm
      rw [List.eq_nil_iff_forall_not_mem]
      intro y hy
      obtain ⟨r, hr, hp, _⟩ := mem_PF.1 hy
      obtain ⟨q, hq, e'⟩ := h.exist r hr k hp
      exact get?_eq_none.1 e q hq e'
    | some r =>
      obtain ⟨_, rfl⟩ := (get?_eq_some h).1 e
      rfl

theorem shows_PF (h : AInv cfg rows) : Shows (PF cfg rows) (· ∈ rows) Row.pk Row.parent (lt cfg) :=
  ⟨fun p => ⟨order cfg (withParent ⟨rows⟩ p), rfl, order_sorted (db := ⟨rows⟩) h p, fun r => by rw [mem_order, mem_withParent]⟩⟩

theorem asymOn_lt (T : Row → Prop) : AsymOn T (lt cfg) := fun _ _ _ _ h => lt_asymm h

theorem injOn_pk (h : AI rows) : InjOn (· ∈ rows) Row.pk := fun _ _ ha hb e => h.pk_inj ha hb e

theorem key_iff (h : AI rows) {r : Row} {p : Option Nat} (hr : r ∈ rows) : r.pk ∈ PF cfg rows p ↔ r.parent = p := by
  rw [mem_PF]
  constructor
  · rintro ⟨q, hq, e, hk⟩; rwa [← h.pk_inj hq hr hk]
  · intro e; exact ⟨r, hr, e, rfl⟩

theorem PF_parent_unique (h : AI rows) {p q : Option Nat} {k : Nat} (hp : k ∈ PF cfg rows p) (hq : k ∈ PF cfg rows q) : p = q := by
  obtain ⟨r, hr, e, rfl⟩ := mem_PF.1 hp
  rw [← e, (key_iff h hr).1 hq]

theorem PF_nodup (h : AI rows) (p : Option Nat) : (PF cfg rows p).Nodup := by
  unfold PF
  rw [((order_perm (cfg := cfg) _).map Row.pk).nodup_iff]
  exact h.pks.sublist (List.filter_sublist.map _)

theorem desc_rank {rank : Nat → Nat} (hr : ∀ r ∈ rows, ∀ p, r.parent = some p → rank p < rank r.pk) {a d : Nat}
    (h : (PF cfg rows).Desc a d) : rank a < rank d := by
  induction h with
  | child hm => obtain ⟨r, h1, h2, rfl⟩ := mem_PF.1 hm; exact hr r h1 _ h2
  | step _ hm ih => obtain ⟨r, h1, h2, rfl⟩ := mem_PF.1 hm; exact Nat.lt_trans ih (hr r h1 _ h2)

theorem desc_irrefl (h : AI rows) (a : Nat) : ¬ (PF cfg rows).Desc a a := by
  obtain ⟨rank, hr⟩ := h.rank
  exact fun hd => Nat.lt_irrefl _ (desc_rank hr hd)

/-- a descendant is a stored row, and its parent is the ancestor or below it -/
theorem desc_last {a d : Nat} (h : (PF cfg rows).Desc a d) :
    ∃ r ∈ rows, r.pk = d ∧ ∃ p, r.parent = some p ∧ (p = a ∨ (PF cfg rows).Desc a p) := by
  cases h with
  | child hm => obtain ⟨r, h1, h2, rfl⟩ := mem_PF.1 hm; exact ⟨r, h1, rfl, a, h2, Or.inl rfl⟩
  | step hd hm => obtain ⟨r, h1, h2, rfl⟩ := mem_PF.1 hm; exact ⟨r, h1, rfl, _, h2, Or.inr hd⟩

/-! ### Chains of ancestors -/

/-- the ancestors of a row, from its root down to its parent -/
inductive Chain (rows : List Row) : Row → List Row → Prop where
  | root {r} : r ∈ rows → r.parent = none → Chain rows r []
  | step {r p l} : Chain rows p l → r ∈ rows → r.parent = some p.pk → Chain rows r (l ++ [p])

theorem Chain.mem {r : Row} {l : List Row} (h : Chain rows r l) : r ∈ rows := by
  cases h <;> assumption

theorem chain_exists (h : AI rows) {r : Row} (hr : r ∈ rows) : ∃ l, Chain rows r l := by
  obtain ⟨rank, hk⟩ := h.rank
  have : ∀ n, ∀ r ∈ rows, rank r.pk < n → ∃ l, Chain rows r l := by
    intro n
    induction n with
    | zero => intro r _ hn; exact absurd hn (Nat.not_lt_zero _)
    | succ n ih =>
      intro r hr hn
      cases hp : r.parent with
      | none => exact ⟨[], .root hr hp⟩
      | some p =>
        obtain ⟨q, hq, rfl⟩ := h.exist r hr p hp
        have := hk r hr _ hp
        obtain ⟨l, hl⟩ := ih q hq (by omega)
        exact ⟨_, .step hl hr hp⟩
  exact this _ r hr (Nat.lt_succ_self _)

theorem Chain.unique (h : AI rows) {r : Row} {l l' : List Row} (h1 : Chain rows r l) (h2 : Chain rows r l') : l = l' := by
  induction h1 generalizing l' with
  | root hr hp =>
    cases h2 with
    | root => rfl
    | step _ _ hp' => rw [hp] at hp'; cases hp'
  | step hc hr hp ih =>
    cases h2 with
    | root _ hp' => rw [hp] at hp'; cases hp'
    | step hc' _ hp' =>
      rw [hp] at hp'
      have := h.pk_inj hc.mem hc'.mem (Option.some.inj hp')
      subst this
      rw [ih hc']

theorem Chain.level {r : Row} {l : List Row} (h : Chain rows r l) : (PF cfg rows).Level r.pk (l.length + 1) := by
  induction h with
  | root hr hp => exact .root (mem_PF.2 ⟨_, hr, hp, rfl⟩)
  | step hc hr hp ih =>
    rw [List.length_append]
    exact .child ih (mem_PF.2 ⟨_, hr, hp, rfl⟩)

theorem Chain.anc {r : Row} {l : List Row} (h : Chain rows r l) : (PF cfg rows).Anc r.pk (l.map Row.pk) := by
  induction h with
  | root hr hp => exact .root (mem_PF.2 ⟨_, hr, hp, rfl⟩)
  | step hc hr hp ih =>
    rw [List.map_append]
    exact .step ih (mem_PF.2 ⟨_, hr, hp, rfl⟩)

theorem level_chain {k n : Nat} (hl : (PF cfg rows).Level k n) : ∃ r l, r.pk = k ∧ Chain rows r l ∧ n = l.length + 1 := by
  induction hl with
  | root hm => obtain ⟨r, hr, hp, rfl⟩ := mem_PF.1 hm; exact ⟨r, [], rfl, .root hr hp, rfl⟩
  | child _ hm ih =>
    obtain ⟨r, hr, hp, rfl⟩ := mem_PF.1 hm
    obtain ⟨q, l, rfl, hc, e⟩ := ih
    exact ⟨r, _, rfl, .step hc hr hp, by rw [List.length_append, e]; rfl⟩

theorem level_unique (h : AI rows) {k n m : Nat} (h1 : (PF cfg rows).Level k n) (h2 : (PF cfg rows).Level k m) : n = m := by
  obtain ⟨r, l, rfl, c, rfl⟩ := level_chain h1
  obtain ⟨r', l', e, c', rfl⟩ := level_chain h2
  have := h.pk_inj c'.mem c.mem e
  subst this
  rw [c.unique h c']

theorem Chain.length_lt (h : AI rows) {r : Row} {l : List Row} (hc : Chain rows r l) : l.length < rows.length := by
  obtain ⟨rank, hk⟩ := h.rank
  have key : (∀ q ∈ l ++ [r], q ∈ rows) ∧ (l ++ [r]).Pairwise (fun a b => rank a.pk < rank b.pk) := by
    induction hc with
    | root hr hp => exact ⟨by simpa using hr, by simp⟩
    | @step r p l hc hr hp ih =>
      obtain ⟨h1, h2⟩ := ih
      refine ⟨?_, ?_⟩
      · intro q hq
        rw [List.mem_append, List.mem_singleton] at hq
        rcases hq with hq | rfl
        · exact h1 q hq
        · exact hr
      · rw [List.pairwise_append]
        refine ⟨h2, by simp, ?_⟩
        intro a ha b hb
        rw [List.mem_singleton] at hb
        subst hb
        have hpr : rank p.pk < rank b.pk := hk b hr _ hp
        rw [List.mem_append, List.mem_singleton] at ha
        rcases ha with ha | rfl
        · rw [List.pairwise_append] at h2
          have := h2.2.2 a ha p (by simp)
          omega
        · exact hpr
  have hnd : (l ++ [r]).Nodup := pairwise_nodup key.2 (fun _ _ => Nat.lt_irrefl _)
  have := (List.subperm_of_subset hnd key.1).length_le
  simp only [List.length_append, List.length_singleton] at this
  omega

end AL
end Verif
