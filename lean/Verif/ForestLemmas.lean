/-
Lemmas about the specification: forests shown by sorted listings of rows.
-/
import Verif.Spec
import Mathlib.Data.List.Sort
import Mathlib.Data.List.Perm.Basic
import Mathlib.Data.List.Nodup

namespace Verif

variable {ρ : Type}

/-- `F` lists, for every parent `p`, the rows of `T` whose parent is `p` in the order `lt`.
(Proof device: the forests of all four implementations have this form.) -/
structure Shows (F : Forest) (T : ρ → Prop) (pk : ρ → Nat) (par : ρ → Option Nat)
    (lt : ρ → ρ → Prop) : Prop where
  lists : ∀ p, ∃ l : List ρ, F p = l.map pk ∧ l.Pairwise lt ∧ ∀ r, r ∈ l ↔ T r ∧ par r = p

/-- asymmetry of an order on the rows of a table -/
def AsymOn (T : ρ → Prop) (lt : ρ → ρ → Prop) : Prop := ∀ r s, T r → T s → lt r s → ¬ lt s r

def InjOn (T : ρ → Prop) (pk : ρ → Nat) : Prop := ∀ r s, T r → T s → pk r = pk s → r = s

theorem pairwise_nodup {lt : ρ → ρ → Prop} {l : List ρ} (h : l.Pairwise lt)
    (ha : ∀ r ∈ l, ¬ lt r r) : l.Nodup := by
  induction l with
  | nil => simp
  | cons a l ih =>
    rw [List.pairwise_cons] at h
    rw [List.nodup_cons]
    refine ⟨fun hm => ha a (by simp) (h.1 a hm), ih h.2 (fun r hr => ha r (by simp [hr]))⟩

theorem sorted_unique {lt : ρ → ρ → Prop} {l l' : List ρ} {T : ρ → Prop}
    (ha : AsymOn T lt) (hT : ∀ r ∈ l, T r)
    (h : l.Pairwise lt) (h' : l'.Pairwise lt) (hm : ∀ r, r ∈ l ↔ r ∈ l') : l = l' := by
  have irr : ∀ r, T r → ¬ lt r r := fun r hr h => ha r r hr hr h h
  have n : l.Nodup := pairwise_nodup h (fun r hr => irr r (hT r hr))
  have n' : l'.Nodup := pairwise_nodup h' (fun r hr => irr r (hT r ((hm r).2 hr)))
  have p : l.Perm l' := (List.perm_ext_iff_of_nodup n n').2 hm
  exact p.eq_of_pairwise (fun a b ha' hb' hab hba =>
    absurd hba (ha a b (hT a ha') (hT b ((hm b).2 hb')) hab)) h h'

theorem Shows.unique {F F' : Forest} {T : ρ → Prop} {pk par lt}
    (h : Shows F T pk par lt) (h' : Shows F' T pk par lt) (ha : AsymOn T lt) : F = F' := by
  funext p
  obtain ⟨l, e, s, m⟩ := h.lists p
  obtain ⟨l', e', s', m'⟩ := h'.lists p
  rw [e, e']
  congr 1
  exact sorted_unique ha (fun r hr => ((m r).1 hr).1) s s' (fun r => by rw [m, m'])

theorem Shows.mem {F : Forest} {T : ρ → Prop} {pk par lt} (h : Shows F T pk par lt) {p : Option Nat}
    {y : Nat} : y ∈ F p ↔ ∃ r, T r ∧ par r = p ∧ pk r = y := by
  obtain ⟨l, e, _, m⟩ := h.lists p
  rw [e, List.mem_map]
  constructor
  · rintro ⟨r, hr, rfl⟩; exact ⟨r, ((m r).1 hr).1, ((m r).1 hr).2, rfl⟩
  · rintro ⟨r, hr, hp, rfl⟩; exact ⟨r, (m r).2 ⟨hr, hp⟩, rfl⟩

/-- Weaken the order and parent functions to equivalent ones on the table. -/
theorem Shows.congr {F : Forest} {T T' : ρ → Prop} {pk par par' lt lt'}
    (h : Shows F T pk par lt) (hT : ∀ r, T r ↔ T' r) (hp : ∀ r, T r → par r = par' r)
    (hl : ∀ r s, T r → T s → par r = par s → lt r s → lt' r s) : Shows F T' pk par' lt' := by
  constructor
  intro p
  obtain ⟨l, e, s, m⟩ := h.lists p
  refine ⟨l, e, ?_, ?_⟩
  · refine s.imp_of_mem ?_
    intro a b ha hb hab
    have ha := (m a).1 ha
    have hb := (m b).1 hb
    exact hl a b ha.1 hb.1 (by rw [ha.2, hb.2]) hab
  · intro r
    rw [m, ← hT]
    constructor
    · rintro ⟨a, b⟩; exact ⟨a, by rw [← hp r a, b]⟩
    · rintro ⟨a, b⟩; exact ⟨a, by rw [hp r a, b]⟩

/-- Pull a listing of updated rows `f r` back to the original rows. -/
theorem Shows.pullback {σ : Type} {F : Forest} {T' : σ → Prop} {pk' par' lt'}
    (h : Shows F T' pk' par' lt') (T : ρ → Prop) (f : ρ → σ)
    (hT : ∀ r', T' r' ↔ ∃ r, T r ∧ f r = r') (hinj : InjOn T (fun r => pk' (f r))) :
    Shows F T (fun r => pk' (f r)) (fun r => par' (f r)) (fun r s => lt' (f r) (f s)) := by
  constructor
  intro p
  obtain ⟨l', e, s, m⟩ := h.lists p
  have key : ∀ k : List σ, (∀ r' ∈ k, T' r') → ∃ l : List ρ, l.map f = k ∧ ∀ r ∈ l, T r := by
    intro k
    induction k with
    | nil => intro _; exact ⟨[], rfl, by simp⟩
    | cons a k ih =>
      intro hk
      obtain ⟨l, hl, hl'⟩ := ih (fun r hr => hk r (by simp [hr]))
      obtain ⟨r, hr, hf⟩ := (hT a).1 (hk a (by simp))
      refine ⟨r :: l, by simp [hl, hf], ?_⟩
      intro q hq
      rcases List.mem_cons.1 hq with rfl | hq
      · exact hr
      · exact hl' q hq
  obtain ⟨l, hl, hlT⟩ := key l' (fun r hr => ((m r).1 hr).1)
  refine ⟨l, ?_, ?_, ?_⟩
  · rw [e, ← hl, List.map_map]; rfl
  · rw [← hl, List.pairwise_map] at s; exact s
  · intro r
    constructor
    · intro hr
      have : f r ∈ l' := by rw [← hl]; exact List.mem_map.2 ⟨r, hr, rfl⟩
      exact ⟨hlT r hr, ((m _).1 this).2⟩
    · rintro ⟨hr, hp⟩
      have : f r ∈ l' := (m _).2 ⟨(hT _).2 ⟨r, hr, rfl⟩, hp⟩
      rw [← hl] at this
      obtain ⟨q, hq, hqr⟩ := List.mem_map.1 this
      have : q = r := hinj q r (hlT q hq) hr (by simp [hqr])
      exact this ▸ hq

theorem Shows.remove {F : Forest} {T : ρ → Prop} {pk par lt} (h : Shows F T pk par lt) (x : Nat) :
    Shows (F.remove x) (fun r => T r ∧ pk r ≠ x) pk par lt := by
  constructor
  intro p
  obtain ⟨l, e, s, m⟩ := h.lists p
  refine ⟨l.filter (fun r => pk r ≠ x), ?_, s.filter _, ?_⟩
  · simp only [Forest.remove, e, List.filter_map]; rfl
  · intro r; simp [List.mem_filter, m]; tauto

/-- The place of `x` in the order `lt'` among the rows of `R` with parent `p` is the slot `s`. -/
def SlotOK (R : ρ → Prop) (pk : ρ → Nat) (par : ρ → Option Nat) (lt lt' : ρ → ρ → Prop)
    (x : ρ) (p : Option Nat) : Slot → Prop
  | .first => ∀ r, R r → par r = p → lt' x r
  | .last => ∀ r, R r → par r = p → lt' r x
  | .before t => ∃ tr, R tr ∧ pk tr = t ∧ par tr = p ∧ lt' x tr ∧
      (∀ r, R r → par r = p → lt r tr → lt' r x) ∧ (∀ r, R r → par r = p → lt tr r → lt' x r)
  | .after t => ∃ tr, R tr ∧ pk tr = t ∧ par tr = p ∧ lt' tr x ∧
      (∀ r, R r → par r = p → lt r tr → lt' r x) ∧ (∀ r, R r → par r = p → lt tr r → lt' x r)

theorem insertBefore_append {t x : Nat} {a b : List Nat} (h : t ∉ a) :
    insertBefore t x (a ++ t :: b) = a ++ x :: t :: b := by
  induction a with
  | nil => simp [insertBefore]
  | cons y a ih =>
    simp only [List.mem_cons, not_or] at h
    simp [insertBefore, Ne.symm h.1, ih h.2]

theorem insertAfter_append {t x : Nat} {a b : List Nat} (h : t ∉ a) :
    insertAfter t x (a ++ t :: b) = a ++ t :: x :: b := by
  induction a with
  | nil => simp [insertAfter]
  | cons y a ih =>
    simp only [List.mem_cons, not_or] at h
    simp [insertAfter, Ne.symm h.1, ih h.2]

/-- The main lemma: if the rows other than `x` keep parent and relative order, and `x` gets parent
`p` and a place in the order matching slot `s`, the new forest is the old one with `x` put there. -/
theorem Shows.put {G F' : Forest} {R : ρ → Prop} {pk : ρ → Nat} {par par' : ρ → Option Nat}
    {lt lt' : ρ → ρ → Prop} {x : ρ} {p : Option Nat} {s : Slot}
    (hG : Shows G R pk par lt) (hF : Shows F' (fun r => R r ∨ r = x) pk par' lt')
    (hx : ¬ R x) (hpar : ∀ r, R r → par' r = par r)
    (hlt : ∀ r q, R r → R q → par r = par q → lt r q → lt' r q)
    (hasym : AsymOn (fun r => R r ∨ r = x) lt') (hinj : InjOn R pk)
    (hp : par' x = p) (hs : SlotOK R pk par lt lt' x p s) : F' = G.put p s (pk x) := by
  refine hF.unique ?_ hasym
  constructor
  intro q
  obtain ⟨l, e, so, m⟩ := hG.lists q
  have so' : l.Pairwise lt' := so.imp_of_mem (fun {a b} ha hb hab => by
    have ha := (m a).1 ha
    have hb := (m b).1 hb
    exact hlt a b ha.1 hb.1 (by rw [ha.2, hb.2]) hab)
  by_cases hq : q = p
  · subst hq
    have fin : ∀ l2 : List ρ, (∀ r, r ∈ l2 ↔ r ∈ l ∨ r = x) →
        (∀ r, r ∈ l2 ↔ (R r ∨ r = x) ∧ par' r = q) := by
      intro l2 h r
      rw [h, m]
      constructor
      · rintro (⟨a, b⟩ | rfl)
        · exact ⟨Or.inl a, by rw [hpar r a, b]⟩
        · exact ⟨Or.inr rfl, hp⟩
      · rintro ⟨a | rfl, b⟩
        · exact Or.inl ⟨a, by rw [← hpar r a, b]⟩
        · exact Or.inr rfl
    cases s with
    | first =>
      refine ⟨x :: l, ?_, ?_, fin _ (by intro r; simp; tauto)⟩
      · simp [Forest.put, Slot.ins, e]
      · rw [List.pairwise_cons]
        refine ⟨fun r hr => ?_, so'⟩
        have := (m r).1 hr
        exact hs r this.1 this.2
    | last =>
      refine ⟨l ++ [x], ?_, ?_, fin _ (by intro r; simp)⟩
      · simp [Forest.put, Slot.ins, e]
      · rw [List.pairwise_append]
        refine ⟨so', by simp, ?_⟩
        intro r hr y hy
        have := (m r).1 hr
        simp at hy; subst hy
        exact hs r this.1 this.2
    | before t =>
      obtain ⟨tr, hR, rfl, hpt, hxt, hb, ha⟩ := hs
      have htr : tr ∈ l := (m tr).2 ⟨hR, hpt⟩
      obtain ⟨a, b, rfl⟩ := List.append_of_mem htr
      have hna : pk tr ∉ a.map pk := by
        intro hmem
        obtain ⟨r, hr, hrt⟩ := List.mem_map.1 hmem
        have hr' := (m r).1 (by simp [hr])
        have : r = tr := hinj r tr hr'.1 hR hrt
        subst this
        rw [List.pairwise_append] at so'
        exact hasym r r (Or.inl hR) (Or.inl hR) (so'.2.2 r hr r (by simp)) (so'.2.2 r hr r (by simp))
      refine ⟨a ++ x :: tr :: b, ?_, ?_, fin _ (by intro r; simp; tauto)⟩
      · simp only [Forest.put, Slot.ins, e, if_true, List.map_append, List.map_cons]
        exact insertBefore_append hna
      · rw [List.pairwise_append] at so so' ⊢
        rw [List.pairwise_cons] at so so'
        refine ⟨so'.1, ?_, ?_⟩
        · rw [List.pairwise_cons]
          refine ⟨?_, List.pairwise_cons.2 so'.2.1⟩
          intro r hr
          rcases List.mem_cons.1 hr with rfl | hr
          · exact hxt
          · have := (m r).1 (by simp [hr])
            exact ha r this.1 this.2 (so.2.1.1 r hr)
        · intro r hr y hy
          have hr' := (m r).1 (by simp [hr])
          rcases List.mem_cons.1 hy with rfl | hy
          · exact hb r hr'.1 hr'.2 (so.2.2 r hr tr (by simp))
          · exact so'.2.2 r hr y hy
    | after t =>
      obtain ⟨tr, hR, rfl, hpt, hxt, hb, ha⟩ := hs
      have htr : tr ∈ l := (m tr).2 ⟨hR, hpt⟩
      obtain ⟨a, b, rfl⟩ := List.append_of_mem htr
      have hna : pk tr ∉ a.map pk := by
        intro hmem
        obtain ⟨r, hr, hrt⟩ := List.mem_map.1 hmem
        have hr' := (m r).1 (by simp [hr])
        have : r = tr := hinj r tr hr'.1 hR hrt
        subst this
        rw [List.pairwise_append] at so'
        exact hasym r r (Or.inl hR) (Or.inl hR) (so'.2.2 r hr r (by simp)) (so'.2.2 r hr r (by simp))
      refine ⟨a ++ tr :: x :: b, ?_, ?_, fin _ (by intro r; simp; tauto)⟩
      · simp only [Forest.put, Slot.ins, e, if_true, List.map_append, List.map_cons]
        exact insertAfter_append hna
      · rw [List.pairwise_append] at so so' ⊢
        rw [List.pairwise_cons] at so so'
        refine ⟨so'.1, ?_, ?_⟩
        · rw [List.pairwise_cons]
          refine ⟨?_, ?_⟩
          · intro r hr
            rcases List.mem_cons.1 hr with rfl | hr
            · exact hxt
            · exact so'.2.1.1 r hr
          · rw [List.pairwise_cons]
            refine ⟨?_, so'.2.1.2⟩
            intro r hr
            have := (m r).1 (by simp [hr])
            exact ha r this.1 this.2 (so.2.1.1 r hr)
        · intro r hr y hy
          have hr' := (m r).1 (by simp [hr])
          rcases List.mem_cons.1 hy with rfl | hy
          · exact so'.2.2 r hr y (by simp)
          · rcases List.mem_cons.1 hy with rfl | hy
            · exact hb r hr'.1 hr'.2 (so.2.2 r hr tr (by simp))
            · exact so'.2.2 r hr y (by simp [hy])
  · refine ⟨l, ?_, so', ?_⟩
    · simp [Forest.put, hq, e]
    · intro r
      rw [m]
      constructor
      · rintro ⟨a, b⟩; exact ⟨Or.inl a, by rw [hpar r a, b]⟩
      · rintro ⟨a | rfl, b⟩
        · exact ⟨a, by rw [← hpar r a, b]⟩
        · exact absurd (b.symm.trans hp) hq

/-- The main lemma for moves: same rows, `x` changes place. -/
theorem Shows.move {F F' : Forest} {T : ρ → Prop} {pk : ρ → Nat} {par par' : ρ → Option Nat}
    {lt lt' : ρ → ρ → Prop} {x : ρ} {p : Option Nat} {s : Slot}
    (hF : Shows F T pk par lt) (hF' : Shows F' T pk par' lt') (hx : T x) (hinj : InjOn T pk)
    (hpar : ∀ r, T r → r ≠ x → par' r = par r)
    (hlt : ∀ r q, T r → T q → r ≠ x → q ≠ x → par r = par q → lt r q → lt' r q)
    (hasym : AsymOn T lt')
    (hp : par' x = p) (hs : SlotOK (fun r => T r ∧ r ≠ x) pk par lt lt' x p s) :
    F' = F.move (pk x) p s := by
  have hG := hF.remove (pk x)
  have e1 : ∀ r, (T r ∧ pk r ≠ pk x) ↔ (T r ∧ r ≠ x) := by
    intro r
    constructor
    · rintro ⟨a, b⟩; exact ⟨a, fun h => b (by rw [h])⟩
    · rintro ⟨a, b⟩; exact ⟨a, fun h => b (hinj r x a hx h)⟩
  have hG' : Shows (F.remove (pk x)) (fun r => T r ∧ r ≠ x) pk par lt :=
    hG.congr e1 (fun _ _ => rfl) (fun _ _ _ _ _ h => h)
  have e2 : ∀ r, ((T r ∧ r ≠ x) ∨ r = x) ↔ T r := by
    intro r
    by_cases h : r = x <;> simp [h, hx]
  refine hG'.put (par' := par') (lt' := lt') (hF'.congr (fun r => (e2 r).symm) (fun _ _ => rfl)
    (fun _ _ _ _ _ h => h)) (by simp) (fun r hr => hpar r hr.1 hr.2) ?_ ?_ ?_ hp hs
  · intro r q hr hq; exact hlt r q hr.1 hq.1 hr.2 hq.2
  · intro r q hr hq; exact hasym r q ((e2 r).1 hr) ((e2 q).1 hq)
  · intro r q hr hq; exact hinj r q hr.1 hq.1

/-- Pruning: a sub-table closed under "parent removed" shows the pruned forest. -/
theorem Shows.prune {F F' : Forest} {T : ρ → Prop} {pk : ρ → Nat} {par par' : ρ → Option Nat}
    {lt lt' : ρ → ρ → Prop} {D : Nat → Bool}
    (hF : Shows F T pk par lt)
    (hF' : Shows F' (fun r => T r ∧ D (pk r) = false) pk par' lt')
    (hpar : ∀ r, T r → D (pk r) = false → par' r = par r)
    (hlt : ∀ r q, T r → T q → D (pk r) = false → D (pk q) = false → par r = par q → lt r q → lt' r q)
    (hasym : AsymOn (fun r => T r ∧ D (pk r) = false) lt')
    (hclosed : ∀ r p, T r → par r = some p → D p = true → D (pk r) = true) :
    F' = F.prune D := by
  refine hF'.unique ?_ hasym
  constructor
  intro q
  obtain ⟨l, e, so, m⟩ := hF.lists q
  have hm : ∀ r, r ∈ l.filter (fun r => !D (pk r)) ↔ (T r ∧ D (pk r) = false) ∧ par' r = q := by
    intro r
    rw [List.mem_filter, m]
    constructor
    · rintro ⟨⟨a, b⟩, c⟩
      have c : D (pk r) = false := by simpa using c
      exact ⟨⟨a, c⟩, by rw [hpar r a c, b]⟩
    · rintro ⟨⟨a, c⟩, b⟩
      exact ⟨⟨a, by rw [← hpar r a c, b]⟩, by simp [c]⟩
  have hs : (l.filter (fun r => !D (pk r))).Pairwise lt' := by
    refine (so.filter _).imp_of_mem ?_
    intro a b ha hb hab
    have ha' := (m a).1 (List.mem_filter.1 ha).1
    have hb' := (m b).1 (List.mem_filter.1 hb).1
    have ha2 := ((hm a).1 ha).1
    have hb2 := ((hm b).1 hb).1
    exact hlt a b ha'.1 hb'.1 ha2.2 hb2.2 (by rw [ha'.2, hb'.2]) hab
  refine ⟨l.filter (fun r => !D (pk r)), ?_, hs, hm⟩
  cases q with
  | none => simp only [Forest.prune, e, List.filter_map]; rfl
  | some p =>
    by_cases hD : D p = true
    · have : l.filter (fun r => !D (pk r)) = [] := by
        rw [List.filter_eq_nil_iff]
        intro r hr
        have := (m r).1 hr
        simp [hclosed r p this.1 this.2 hD]
      simp [Forest.prune, hD, this]
    · simp only [Forest.prune, hD, e, List.filter_map]; rfl

/-! ### Descendants -/

theorem Forest.Desc.trans {F : Forest} {a b c : Nat} (h : F.Desc a b) (h' : F.Desc b c) :
    F.Desc a c := by
  induction h' with
  | child hd => exact .step h hd
  | step _ hd ih => exact .step ih hd

theorem Forest.Desc.cases_head {F : Forest} {a d : Nat} (h : F.Desc a d) :
    ∃ c, c ∈ F (some a) ∧ (d = c ∨ F.Desc c d) := by
  induction h with
  | child hd => exact ⟨_, hd, Or.inl rfl⟩
  | @step m d _ hd ih =>
    obtain ⟨c, hc, h⟩ := ih
    refine ⟨c, hc, Or.inr ?_⟩
    rcases h with rfl | h
    · exact .child hd
    · exact .step h hd

/-! ### Pre-order of a sorted listing -/

/-- A listing of the branches of `cs` that is sorted by an order in which nodes precede their
descendants and whole branches precede whole branches of later siblings, is the pre-order. -/
theorem dfs_of_sorted {F : Forest} {lt : Nat → Nat → Prop} :
    ∀ (n : Nat) (l cs : List Nat), l.length ≤ n →
    (∀ a b, a ∈ l → b ∈ l → lt a b → ¬ lt b a) →
    l.Pairwise lt → cs.Pairwise lt →
    (∀ p ∈ l, (F (some p)).Pairwise lt) →
    (∀ y, y ∈ l ↔ ∃ c ∈ cs, y = c ∨ F.Desc c y) →
    (∀ a d, a ∈ l → F.Desc a d → lt a d) →
    (∀ a b, a ∈ cs → b ∈ cs → lt a b → ∀ y z, (y = a ∨ F.Desc a y) → (z = b ∨ F.Desc b z) → lt y z) →
    (∀ p ∈ l, ∀ a b, a ∈ F (some p) → b ∈ F (some p) → lt a b →
      ∀ y z, (y = a ∨ F.Desc a y) → (z = b ∨ F.Desc b z) → lt y z) →
    F.DFS cs l := by
  intro n
  induction n with
  | zero =>
    intro l cs hn hasym hl hcs hF hmem hdesc hblk hblk'
    have : l = [] := List.length_eq_zero_iff.1 (Nat.le_zero.1 hn)
    subst this
    cases cs with
    | nil => exact .nil
    | cons c cs => exact absurd ((hmem c).2 ⟨c, by simp, Or.inl rfl⟩) (by simp)
  | succ n ih =>
    intro l cs hn hasym hl hcs hF hmem hdesc hblk hblk'
    cases cs with
    | nil =>
      have : l = [] := by
        cases l with
        | nil => rfl
        | cons a l => exact absurd ((hmem a).1 (by simp)) (by simp)
      subst this
      exact .nil
    | cons c cs =>
      rw [List.pairwise_cons] at hcs
      have hc : c ∈ l := (hmem c).2 ⟨c, by simp, Or.inl rfl⟩
      -- c is the least element of l
      have hleast : ∀ y ∈ l, y ≠ c → lt c y := by
        intro y hy hyc
        obtain ⟨d, hd, h⟩ := (hmem y).1 hy
        rcases List.mem_cons.1 hd with rfl | hd
        · rcases h with rfl | h
          · exact absurd rfl hyc
          · exact hdesc _ _ hc h
        · exact hblk c d (by simp) (by simp [hd]) (hcs.1 d hd) c y (Or.inl rfl) h
      cases l with
      | nil => simp at hc
      | cons a t =>
        have hac : a = c := by
          rcases List.mem_cons.1 hc with h | h
          · exact h.symm
          · by_contra hne
            have h1 := hleast a (by simp) hne
            rw [List.pairwise_cons] at hl
            exact hasym a c (by simp) (by simp [h]) (hl.1 c h) h1
        subst hac
        rw [List.pairwise_cons] at hl
        have hnd : (a :: t).Nodup := by
          refine pairwise_nodup (lt := lt) (List.pairwise_cons.2 hl) ?_
          intro r hr h; exact hasym r r hr hr h h
        rw [List.nodup_cons] at hnd
        -- Decidability of "descendant of a"
        classical
        let l₁ := t.filter (fun y => decide (F.Desc a y))
        let l₂ := t.filter (fun y => !decide (F.Desc a y))
        have hl₁ : ∀ y, y ∈ l₁ ↔ y ∈ t ∧ F.Desc a y := by intro y; simp [l₁]
        have hl₂ : ∀ y, y ∈ l₂ ↔ y ∈ t ∧ ¬ F.Desc a y := by intro y; simp [l₂]
        have hdt : ∀ y, F.Desc a y → y ∈ t := by
          intro y hy
          have h1 : y ∈ a :: t := (hmem y).2 ⟨a, by simp, Or.inr hy⟩
          rcases List.mem_cons.1 h1 with rfl | h1
          · have := hdesc y y (by simp) hy
            exact absurd this (hasym y y (by simp) (by simp) this)
          · exact h1
        have hsplit : t = l₁ ++ l₂ := by
          have hmem2 : ∀ y, y ∈ t → ¬ F.Desc a y → ∃ d ∈ cs, y = d ∨ F.Desc d y := by
            intro y hy hny
            obtain ⟨d, hd, h⟩ := (hmem y).1 (by simp [hy])
            rcases List.mem_cons.1 hd with rfl | hd
            · rcases h with rfl | h
              · exact absurd hy hnd.1
              · exact absurd h hny
            · exact ⟨d, hd, h⟩
          refine sorted_unique (T := fun y => y ∈ a :: t) (lt := lt) hasym ?_ hl.2 ?_ ?_
          · intro r hr; simp [hr]
          · rw [List.pairwise_append]
            refine ⟨hl.2.filter _, hl.2.filter _, ?_⟩
            intro y hy z hz
            have hy := (hl₁ y).1 hy
            have hz := (hl₂ z).1 hz
            obtain ⟨d, hd, h⟩ := hmem2 z hz.1 hz.2
            exact hblk a d (by simp) (by simp [hd]) (hcs.1 d hd) y z (Or.inr hy.2) h
          · intro r
            rw [List.mem_append, hl₁, hl₂]
            tauto
        have hlen1 : l₁.length ≤ n := by
          have := List.length_filter_le (fun y => decide (F.Desc a y)) t
          simp at hn; simp only [l₁]; omega
        have hlen2 : l₂.length ≤ n := by
          have := List.length_filter_le (fun y => !decide (F.Desc a y)) t
          simp at hn; simp only [l₂]; omega
        rw [hsplit]
        refine .cons ?_ ?_
        · refine ih l₁ _ hlen1 ?_ (hl.2.filter _) (hF a (by simp)) ?_ ?_ ?_ ?_ ?_
          · intro x y hx hy
            exact hasym x y (by simp [((hl₁ x).1 hx).1]) (by simp [((hl₁ y).1 hy).1])
          · intro p hp; exact hF p (by simp [((hl₁ p).1 hp).1])
          · intro y
            rw [hl₁]
            constructor
            · rintro ⟨_, h⟩; exact h.cases_head
            · rintro ⟨d, hd, rfl | h⟩
              · exact ⟨hdt _ (.child hd), .child hd⟩
              · have : F.Desc a y := Forest.Desc.trans (.child hd) h
                exact ⟨hdt _ this, this⟩
          · intro x d hx; exact hdesc x d (by simp [((hl₁ x).1 hx).1])
          · exact hblk' a (by simp)
          · intro p hp; exact hblk' p (by simp [((hl₁ p).1 hp).1])
        · refine ih l₂ _ hlen2 ?_ (hl.2.filter _) hcs.2 ?_ ?_ ?_ ?_ ?_
          · intro x y hx hy
            exact hasym x y (by simp [((hl₂ x).1 hx).1]) (by simp [((hl₂ y).1 hy).1])
          · intro p hp; exact hF p (by simp [((hl₂ p).1 hp).1])
          · intro y
            rw [hl₂]
            constructor
            · rintro ⟨hy, h⟩
              obtain ⟨d, hd, h'⟩ := (hmem y).1 (by simp [hy])
              rcases List.mem_cons.1 hd with rfl | hd
              · rcases h' with rfl | h'
                · exact absurd hy hnd.1
                · exact absurd h' h
              · exact ⟨d, hd, h'⟩
            · rintro ⟨d, hd, h⟩
              have h1 : lt a y := hblk a d (by simp) (by simp [hd]) (hcs.1 d hd) a y (Or.inl rfl) h
              have hy : y ∈ a :: t := (hmem y).2 ⟨d, by simp [hd], h⟩
              rcases List.mem_cons.1 hy with rfl | hy
              · exact absurd h1 (hasym y y (by simp) (by simp) h1)
              · refine ⟨hy, fun hd' => ?_⟩
                have := hblk a d (by simp) (by simp [hd]) (hcs.1 d hd) y y (Or.inr hd') h
                exact hasym y y (by simp [hy]) (by simp [hy]) this this
          · intro x d hx; exact hdesc x d (by simp [((hl₂ x).1 hx).1])
          · intro x y hx hy; exact hblk x y (by simp [hx]) (by simp [hy])
          · intro p hp; exact hblk' p (by simp [((hl₂ p).1 hp).1])

end Verif
