/-
NS: putting a new row, or a whole branch, into a hole of the numbering.
-/
import Verif.NS.Shift

namespace Verif.NS

set_option linter.unusedSectionVars false

variable {rows : List Row}

/-- the branch of `x` -/
def InB (x r : Row) : Prop := r = x ∨ encl x r

instance (x r : Row) : Decidable (InB x r) := inferInstanceAs (Decidable (_ ∨ _))

/-- A hole of `g` numbers at `l` in the tree `T`, with the innermost row `p` of those not in `B` around it.  Without a
row around it, it is at the start of an empty tree. -/
structure Hole (rows : List Row) (B : Row → Prop) (T l g : Int) (p : Option Row) : Prop where
  free : ∀ e, EndP rows T e → e < l ∨ l + g ≤ e
  tree : 1 ≤ T
  none : p = none → l = 1 ∧ ∀ r ∈ rows, r.tree ≠ T
  some : ∀ q, p = some q → q ∈ rows ∧ ¬ B q ∧ q.tree = T ∧ q.lft < l ∧ l + g ≤ q.rgt ∧
    ∀ q' ∈ rows, ¬ B q' → q'.tree = T → q'.lft < l → l + g ≤ q'.rgt → q' = q ∨ encl q' q

/-- the row stands before the place -/
def befH (T l : Int) (r : Row) : Prop := r.tree < T ∨ (r.tree = T ∧ r.lft < l)
/-- the row stands after the place -/
def aftH (T l : Int) (r : Row) : Prop := T < r.tree ∨ (r.tree = T ∧ l < r.lft)

/-- the place `T`, `l` among the rows of `R` with parent `p` is the slot -/
def SlotAt (rows : List Row) (R : Row → Prop) (p : Option Nat) (T l : Int) : Slot → Prop
  | .first => ∀ r ∈ rows, R r → par rows r = p → aftH T l r
  | .last => ∀ r ∈ rows, R r → par rows r = p → befH T l r
  | .before t => ∃ tr ∈ rows, R tr ∧ tr.pk = t ∧ par rows tr = p ∧ aftH T l tr ∧
      ∀ r ∈ rows, R r → par rows r = p → lt r tr → befH T l r
  | .after t => ∃ tr ∈ rows, R tr ∧ tr.pk = t ∧ par rows tr = p ∧ befH T l tr ∧
      ∀ r ∈ rows, R r → par rows r = p → lt tr r → aftH T l r

/-- the depth below `p` -/
def depthIn (p : Option Row) : Int := match p with | none => 1 | some q => q.depth + 1

theorem InB.tree {x r : Row} (h : InB x r) : r.tree = x.tree := by
  rcases h with rfl | h
  · rfl
  · exact h.1.symm

/-! ### Branches -/

theorem NI.inB_iff (h : NI rows) {x r : Row} (hx : x ∈ rows) (hr : r ∈ rows) :
    InB x r ↔ r.tree = x.tree ∧ x.lft ≤ r.lft ∧ r.lft ≤ x.rgt := by
  have hl := h.lr x hx
  have hl' := h.lr r hr
  unfold InB
  constructor
  · rintro (rfl | he)
    · exact ⟨rfl, by omega, by omega⟩
    · unfold encl at he; exact ⟨he.1.symm, by omega, by omega⟩
  · rintro ⟨ht, h1, h2⟩
    by_cases e : r = x
    · exact Or.inl e
    · right
      have hd := h.dist r hr x hx e ht
      have := h.lam x hx r hr ht.symm (by omega) (by omega)
      exact ⟨ht.symm, by omega, this⟩

/-- an endpoint inside the interval of `x` belongs to its branch -/
theorem NI.inB_of_end (h : NI rows) {x r : Row} (hx : x ∈ rows) (hr : r ∈ rows) (ht : r.tree = x.tree) {e : Int}
    (he : r.lft = e ∨ r.rgt = e) (h1 : x.lft ≤ e) (h2 : e ≤ x.rgt) : InB x r := by
  by_cases hne : r = x
  · exact Or.inl hne
  · right
    have hl := h.lr x hx
    have hl' := h.lr r hr
    have hd := h.dist r hr x hx hne ht
    have hd' := h.dist x hx r hr (Ne.symm hne) ht.symm
    rcases h.tri hx hr (Ne.symm hne) ht.symm with e1 | e1 | e1 | e1
    · exact e1
    · unfold encl at e1; omega
    · omega
    · omega

/-- for a row outside the branch, enclosing a member of the branch is enclosing its top -/
theorem NI.encl_out (h : NI rows) {x a b : Row} (hx : x ∈ rows) (ha : a ∈ rows) (hb : b ∈ rows) (hna : ¬ InB x a)
    (hbB : InB x b) : encl a b ↔ encl a x := by
  rcases hbB with rfl | hxb
  · exact Iff.rfl
  · constructor
    · intro hab
      rcases h.chain ha hx hb hab hxb with e | e | e
      · exact absurd (Or.inl e) hna
      · exact e
      · exact absurd (Or.inr e) hna
    · exact fun hax => encl_trans hax hxb

theorem inB_down {x a b : Row} (ha : InB x a) (hab : encl a b) : InB x b := by
  rcases ha with rfl | ha
  · exact Or.inr hab
  · exact Or.inr (encl_trans ha hab)

/-- the parent of a proper member of the branch is in the branch -/
theorem inner_inB {x q b : Row} (hx : x ∈ rows) (hi : Inner rows q b) (hb : encl x b) : InB x q := by
  rcases hi.2.2 x hx hb with rfl | e
  · exact Or.inl rfl
  · exact Or.inr e

/-! ### A jump -/

section jump

variable {x : Row} {T l : Int} {p : Option Row}

/-- what the jump does to a row -/
def jrow (x : Row) (T l : Int) (p : Option Row) : Row → Row :=
  jumpRow x.tree x.lft x.rgt T (l - x.lft) (depthIn p - x.depth)

theorem jrow_in (h : NI rows) (hx : x ∈ rows) {r : Row} (hr : r ∈ rows) (hB : InB x r) : jrow x T l p r =
    { r with tree := T, lft := r.lft + (l - x.lft), rgt := r.rgt + (l - x.lft), depth := r.depth + (depthIn p - x.depth) } := by
  unfold jrow jumpRow
  rw [if_pos ((h.inB_iff hx hr).1 hB)]

theorem jrow_out (h : NI rows) (hx : x ∈ rows) {r : Row} (hr : r ∈ rows) (hB : ¬ InB x r) : jrow x T l p r = r := by
  unfold jrow jumpRow
  rw [if_neg (fun hh => hB ((h.inB_iff hx hr).2 hh))]

theorem jrow_pk (r : Row) : (jrow x T l p r).pk = r.pk := by unfold jrow jumpRow; split <;> rfl
theorem jrow_vals (r : Row) : (jrow x T l p r).vals = r.vals := by unfold jrow jumpRow; split <;> rfl

/-- where the rows of the branch end up -/
theorem jrow_bounds (h : NI rows) (hx : x ∈ rows) {r : Row} (hr : r ∈ rows) (hB : InB x r) :
    (jrow x T l p r).tree = T ∧ l ≤ (jrow x T l p r).lft ∧ (jrow x T l p r).lft < (jrow x T l p r).rgt ∧
    (jrow x T l p r).rgt < l + (x.rgt - x.lft + 1) := by
  have hlr := h.lr r hr
  rw [jrow_in h hx hr hB]
  rcases hB with rfl | he
  · refine ⟨rfl, ?_, ?_, ?_⟩ <;> simp only <;> omega
  · unfold encl at he
    refine ⟨rfl, ?_, ?_, ?_⟩ <;> simp only <;> omega

variable (h : NI rows) (hx : x ∈ rows) (hh : Hole rows (InB x) T l (x.rgt - x.lft + 1) p)
include h hx hh

theorem encl_in_in {a b : Row} (ha : a ∈ rows) (hb : b ∈ rows) (hA : InB x a) (hB : InB x b) :
    encl (jrow x T l p a) (jrow x T l p b) ↔ encl a b := by
  rw [jrow_in h hx ha hA, jrow_in h hx hb hB]
  unfold encl
  have h1 := hA.tree
  have h2 := hB.tree
  simp only [h1, h2, true_and]
  omega

theorem encl_out_out {a b : Row} (ha : a ∈ rows) (hb : b ∈ rows) (hA : ¬ InB x a) (hB : ¬ InB x b) :
    encl (jrow x T l p a) (jrow x T l p b) ↔ encl a b := by
  rw [jrow_out h hx ha hA, jrow_out h hx hb hB]

theorem encl_in_out {a b : Row} (ha : a ∈ rows) (hb : b ∈ rows) (hA : InB x a) (hB : ¬ InB x b) :
    ¬ encl (jrow x T l p a) (jrow x T l p b) := by
  rw [jrow_out h hx hb hB]
  obtain ⟨h1, h2, h3, h4⟩ := jrow_bounds (T := T) (l := l) (p := p) h hx ha hA
  intro he
  unfold encl at he
  have := hh.free b.lft (by rw [← h1, he.1]; exact EndP.lft hb)
  have := h.lr b hb
  omega

theorem encl_out_in {a b : Row} (ha : a ∈ rows) (hb : b ∈ rows) (hA : ¬ InB x a) (hB : InB x b) :
    encl (jrow x T l p a) (jrow x T l p b) ↔ ∃ q, p = some q ∧ (a = q ∨ encl a q) := by
  rw [jrow_out h hx ha hA]
  obtain ⟨h1, h2, h3, h4⟩ := jrow_bounds (T := T) (l := l) (p := p) h hx hb hB
  constructor
  · intro he
    unfold encl at he
    have ht : a.tree = T := he.1.trans h1
    have f1 := hh.free a.lft (ht ▸ EndP.lft ha)
    have f2 := hh.free a.rgt (ht ▸ EndP.rgt ha)
    cases p with
    | none => exact absurd ht ((hh.none rfl).2 a ha)
    | some q => exact ⟨q, rfl, (hh.some q rfl).2.2.2.2.2 a ha hA ht (by omega) (by omega)⟩
  · rintro ⟨q, hq, hor⟩
    obtain ⟨g1, _, g2, g3, g4, _⟩ := hh.some q hq
    unfold encl
    rcases hor with rfl | he
    · exact ⟨by omega, by omega, by omega⟩
    · unfold encl at he
      exact ⟨by omega, by omega, by omega⟩

/-- enclosing `p` excludes being in the branch -/
theorem up_out {q a : Row} (hq : p = some q) (hor : a = q ∨ encl a q) : ¬ InB x a := by
  have hnB := (hh.some q hq).2.1
  rcases hor with rfl | he
  · exact hnB
  · exact fun hB => hnB (inB_down hB he)

theorem above_jump_out {b : Row} (hb : b ∈ rows) (hB : ¬ InB x b) :
    above (rows.map (jrow x T l p)) (jrow x T l p b) = above rows b := by
  unfold above
  rw [List.countP_map]
  apply List.countP_congr
  intro a ha
  simp only [Function.comp, decide_eq_true_eq]
  by_cases hA : InB x a
  · constructor
    · intro he; exact absurd he (encl_in_out h hx hh ha hb hA hB)
    · intro he; exact absurd (inB_down hA he) hB
  · exact encl_out_out h hx hh ha hb hA hB

theorem above_split {f : Row → Row} {b : Row} : above (rows.map f) (f b) =
    rows.countP (fun a => decide (encl (f a) (f b)) && decide (InB x a)) +
    rows.countP (fun a => decide (encl (f a) (f b)) && !decide (InB x a)) := by
  unfold above
  rw [List.countP_map]
  rw [List.countP_eq_countP_filter_add rows _ (fun a => decide (InB x a)), List.countP_filter, List.countP_filter]
  rfl

theorem above_jump_in {b : Row} (hb : b ∈ rows) (hB : InB x b) :
    (above (rows.map (jrow x T l p)) (jrow x T l p b) : Int) + above rows x + 1 = above rows b + depthIn p := by
  have s1 := above_split h hx hh (f := jrow x T l p) (b := b)
  have s2 := above_split h hx hh (f := id) (b := b)
  rw [List.map_id] at s2
  have e1 : rows.countP (fun a => decide (encl (jrow x T l p a) (jrow x T l p b)) && decide (InB x a)) =
      rows.countP (fun a => decide (encl a b) && decide (InB x a)) := by
    apply List.countP_congr
    intro a ha
    by_cases hA : InB x a
    · simp [hA, encl_in_in h hx hh ha hb hA hB]
    · simp [hA]
  have e2 : rows.countP (fun a => decide (encl a b) && !decide (InB x a)) = above rows x := by
    unfold above
    apply List.countP_congr
    intro a ha
    by_cases hA : InB x a
    · simp only [hA, decide_true, Bool.not_true, Bool.and_false, Bool.false_eq_true, decide_eq_true_eq, false_iff]
      intro he
      rcases hA with rfl | hA
      · exact encl_irrefl _ he
      · exact encl_asymm he hA
    · simp [hA, h.encl_out hx ha hb hA hB]
  have e3 : (rows.countP (fun a => decide (encl (jrow x T l p a) (jrow x T l p b)) && !decide (InB x a)) : Int) + 1 = depthIn p := by
    cases p with
    | none =>
      have : rows.countP (fun a => decide (encl (jrow x T l none a) (jrow x T l none b)) && !decide (InB x a)) = 0 := by
        rw [List.countP_eq_zero]
        intro a ha
        by_cases hA : InB x a
        · simp [hA]
        · simp [hA, encl_out_in h hx hh ha hb hA hB]
      rw [this]; rfl
    | some q =>
      obtain ⟨hq, hnB, _⟩ := hh.some q rfl
      have : rows.countP (fun a => decide (encl (jrow x T l (some q) a) (jrow x T l (some q) b)) && !decide (InB x a)) =
          rows.countP (fun a => decide (a = q) || decide (encl a q)) := by
        apply List.countP_congr
        intro a ha
        by_cases hA : InB x a
        · have := fun hor => up_out h hx hh rfl (a := a) hor hA
          simp only [hA, decide_true, Bool.not_true, Bool.and_false, Bool.false_eq_true, Bool.or_eq_true, decide_eq_true_eq, false_iff]
          exact this
        · simp [hA, encl_out_in h hx hh ha hb hA hB]
      rw [this, List.countP_eq_countP_filter_add rows _ (fun a => decide (a = q)), List.countP_filter, List.countP_filter]
      have c1 : rows.countP (fun a => (decide (a = q) || decide (encl a q)) && decide (a = q)) = 1 := by
        rw [show (fun a => (decide (a = q) || decide (encl a q)) && decide (a = q)) = (fun a => a == q) from ?_]
        · have := List.nodup_iff_count_eq_one.1 h.nodup q hq
          rwa [List.count] at this
        · funext a; by_cases e : a = q <;> simp [e]
      have c2 : rows.countP (fun a => (decide (a = q) || decide (encl a q)) && !decide (a = q)) = above rows q := by
        apply List.countP_congr
        intro a _
        by_cases e : a = q
        · subst e; simp [encl_irrefl]
        · simp [e]
      rw [c1, c2, depthIn, h.depth q hq]
      omega
  rw [e1] at s1
  simp only [id] at s2
  rw [e2] at s2
  omega

theorem jump_ni : NI (rows.map (jrow x T l p)) where
  pks := by
    rw [List.map_map, show Row.pk ∘ jrow x T l p = Row.pk from funext (fun r => jrow_pk r)]
    exact h.pks
  lr := by
    intro r' hr'
    obtain ⟨r, hr, rfl⟩ := List.mem_map.1 hr'
    by_cases hB : InB x r
    · exact (jrow_bounds h hx hr hB).2.2.1
    · rw [jrow_out h hx hr hB]; exact h.lr r hr
  one := by
    intro r' hr'
    obtain ⟨r, hr, rfl⟩ := List.mem_map.1 hr'
    by_cases hB : InB x r
    · have h1 := (jrow_bounds (T := T) (l := l) (p := p) h hx hr hB).2.1
      cases p with
      | none => have := (hh.none rfl).1; omega
      | some q =>
        obtain ⟨g1, _, _, g3, _⟩ := hh.some q rfl
        have := h.one q g1
        omega
    · rw [jrow_out h hx hr hB]; exact h.one r hr
  tree := by
    intro r' hr'
    obtain ⟨r, hr, rfl⟩ := List.mem_map.1 hr'
    by_cases hB : InB x r
    · rw [(jrow_bounds h hx hr hB).1]; exact hh.tree
    · rw [jrow_out h hx hr hB]; exact h.tree r hr
  dist := by
    intro a' ha' b' hb' hne ht
    obtain ⟨a, ha, rfl⟩ := List.mem_map.1 ha'
    obtain ⟨b, hb, rfl⟩ := List.mem_map.1 hb'
    have hne' : a ≠ b := by rintro rfl; exact hne rfl
    by_cases hA : InB x a <;> by_cases hB : InB x b
    · have := h.dist a ha b hb hne' (hA.tree.trans hB.tree.symm)
      rw [jrow_in h hx ha hA, jrow_in h hx hb hB]
      simp only
      omega
    · obtain ⟨h1, h2, h3, h4⟩ := jrow_bounds (T := T) (l := l) (p := p) h hx ha hA
      rw [jrow_out h hx hb hB] at ht ⊢
      have hbT : b.tree = T := ht.symm.trans h1
      have f1 := hh.free b.lft (hbT ▸ EndP.lft hb)
      have f2 := hh.free b.rgt (hbT ▸ EndP.rgt hb)
      omega
    · obtain ⟨h1, h2, h3, h4⟩ := jrow_bounds (T := T) (l := l) (p := p) h hx hb hB
      rw [jrow_out h hx ha hA] at ht ⊢
      have haT : a.tree = T := ht.trans h1
      have f1 := hh.free a.lft (haT ▸ EndP.lft ha)
      have f2 := hh.free a.rgt (haT ▸ EndP.rgt ha)
      omega
    · rw [jrow_out h hx ha hA, jrow_out h hx hb hB] at ht ⊢
      exact h.dist a ha b hb hne' ht
  lam := by
    intro a' ha' b' hb' ht
    obtain ⟨a, ha, rfl⟩ := List.mem_map.1 ha'
    obtain ⟨b, hb, rfl⟩ := List.mem_map.1 hb'
    by_cases hA : InB x a <;> by_cases hB : InB x b
    · have := h.lam a ha b hb (hA.tree.trans hB.tree.symm)
      rw [jrow_in h hx ha hA, jrow_in h hx hb hB]
      simp only
      omega
    · obtain ⟨h1, h2, h3, h4⟩ := jrow_bounds (T := T) (l := l) (p := p) h hx ha hA
      rw [jrow_out h hx hb hB] at ht ⊢
      have hbT : b.tree = T := ht.symm.trans h1
      have f1 := hh.free b.lft (hbT ▸ EndP.lft hb)
      have f2 := hh.free b.rgt (hbT ▸ EndP.rgt hb)
      omega
    · obtain ⟨h1, h2, h3, h4⟩ := jrow_bounds (T := T) (l := l) (p := p) h hx hb hB
      rw [jrow_out h hx ha hA] at ht ⊢
      have haT : a.tree = T := ht.trans h1
      have f1 := hh.free a.lft (haT ▸ EndP.lft ha)
      have f2 := hh.free a.rgt (haT ▸ EndP.rgt ha)
      omega
    · rw [jrow_out h hx ha hA, jrow_out h hx hb hB] at ht ⊢
      exact h.lam a ha b hb ht
  root := by
    intro b' hb' hl
    obtain ⟨b, hb, rfl⟩ := List.mem_map.1 hb'
    by_cases hB : InB x b
    · cases p with
      | none =>
        have h1 := (hh.none rfl).1
        refine ⟨jrow x T l none x, List.mem_map_of_mem hx, ?_, ?_⟩
        · rw [jrow_in h hx hx (Or.inl rfl)]; simp only; omega
        · rw [encl_in_in h hx hh hx hb (Or.inl rfl) hB]
          rcases hB with e | e
          · subst e; exact absurd (by rw [jrow_in h hx hx (Or.inl rfl)]; simp only; omega) hl
          · exact e
      | some q =>
        obtain ⟨hq, hnB, _⟩ := hh.some q rfl
        have : ∃ q' ∈ rows, q'.lft = 1 ∧ (q' = q ∨ encl q' q) := by
          by_cases e : q.lft = 1
          · exact ⟨q, hq, e, Or.inl rfl⟩
          · obtain ⟨q', h1, h2, h3⟩ := h.root q hq e; exact ⟨q', h1, h2, Or.inr h3⟩
        obtain ⟨q', h1, h2, h3⟩ := this
        have hnB' := up_out h hx hh rfl h3
        refine ⟨jrow x T l (some q) q', List.mem_map_of_mem h1, by rw [jrow_out h hx h1 hnB']; exact h2, ?_⟩
        rw [encl_out_in h hx hh h1 hb hnB' hB]
        exact ⟨q, rfl, h3⟩
    · rw [jrow_out h hx hb hB] at hl
      obtain ⟨q, h1, h2, h3⟩ := h.root b hb hl
      have hnB : ¬ InB x q := fun hq => hB (inB_down hq h3)
      exact ⟨jrow x T l p q, List.mem_map_of_mem h1, by rw [jrow_out h hx h1 hnB]; exact h2,
        (encl_out_out h hx hh h1 hb hnB hB).2 h3⟩
  depth := by
    intro b' hb'
    obtain ⟨b, hb, rfl⟩ := List.mem_map.1 hb'
    by_cases hB : InB x b
    · have e := above_jump_in h hx hh hb hB
      have d1 := h.depth b hb
      have d2 := h.depth x hx
      have : (jrow x T l p b).depth = b.depth + (depthIn p - x.depth) := by rw [jrow_in h hx hb hB]
      rw [this]
      omega
    · rw [above_jump_out h hx hh hb hB, jrow_out h hx hb hB]; exact h.depth b hb

theorem jump_par_out {b : Row} (hb : b ∈ rows) (hne : b ≠ x) :
    par (rows.map (jrow x T l p)) (jrow x T l p b) = par rows b := by
  have hni := jump_ni h hx hh
  have hb' := List.mem_map_of_mem (f := jrow x T l p) hb
  rcases par_cases h hb with ⟨e, hn⟩ | ⟨q, hi, e⟩
  · have hB : ¬ InB x b := by
      rintro (hB | hB)
      · exact hne hB
      · exact hn x hx hB
    rw [e, par_eq_none hni hb', jrow_out h hx hb hB]
    exact (par_eq_none h hb).1 e
  · rw [e, ← jrow_pk (x := x) (T := T) (l := l) (p := p) q]
    refine par_of_inner hni hb' ⟨List.mem_map_of_mem hi.1, ?_, ?_⟩
    · by_cases hB : InB x b
      · rcases hB with hB | hB
        · exact absurd hB hne
        · have hQ := inner_inB hx hi hB
          exact (encl_in_in h hx hh hi.1 hb hQ (Or.inr hB)).2 hi.2.1
      · have hQ : ¬ InB x q := fun hq => hB (inB_down hq hi.2.1)
        exact (encl_out_out h hx hh hi.1 hb hQ hB).2 hi.2.1
    · intro a' ha' he
      obtain ⟨a, ha, rfl⟩ := List.mem_map.1 ha'
      by_cases hB : InB x b
      · rcases hB with hB | hB
        · exact absurd hB hne
        · have hQ := inner_inB hx hi hB
          by_cases hA : InB x a
          · rcases hi.2.2 a ha ((encl_in_in h hx hh ha hb hA (Or.inr hB)).1 he) with rfl | e'
            · exact Or.inl rfl
            · exact Or.inr ((encl_in_in h hx hh ha hi.1 hA hQ).2 e')
          · right
            exact (encl_out_in h hx hh ha hi.1 hA hQ).2 ((encl_out_in h hx hh ha hb hA (Or.inr hB)).1 he)
      · have hQ : ¬ InB x q := fun hq => hB (inB_down hq hi.2.1)
        by_cases hA : InB x a
        · exact absurd he (encl_in_out h hx hh ha hb hA hB)
        · rcases hi.2.2 a ha ((encl_out_out h hx hh ha hb hA hB).1 he) with rfl | e'
          · exact Or.inl rfl
          · exact Or.inr ((encl_out_out h hx hh ha hi.1 hA hQ).2 e')

theorem jump_par_x : par (rows.map (jrow x T l p)) (jrow x T l p x) = p.map Row.pk := by
  have hni := jump_ni h hx hh
  have hx' := List.mem_map_of_mem (f := jrow x T l p) hx
  cases p with
  | none =>
    rw [Option.map_none, par_eq_none hni hx', jrow_in h hx hx (Or.inl rfl)]
    have := (hh.none rfl).1
    simp only; omega
  | some q =>
    obtain ⟨hq, hnB, _⟩ := hh.some q rfl
    rw [Option.map_some, ← jrow_pk (x := x) (T := T) (l := l) (p := some q) q]
    refine par_of_inner hni hx' ⟨List.mem_map_of_mem hq, ?_, ?_⟩
    · rw [encl_out_in h hx hh hq hx hnB (Or.inl rfl)]; exact ⟨q, rfl, Or.inl rfl⟩
    · intro a' ha' he
      obtain ⟨a, ha, rfl⟩ := List.mem_map.1 ha'
      by_cases hA : InB x a
      · rw [encl_in_in h hx hh ha hx hA (Or.inl rfl)] at he
        rcases hA with rfl | hA
        · exact absurd he (encl_irrefl _)
        · exact absurd he (encl_asymm hA)
      · obtain ⟨q', e, hor⟩ := (encl_out_in h hx hh ha hx hA (Or.inl rfl)).1 he
        cases e
        rcases hor with rfl | e
        · exact Or.inl rfl
        · right; rw [encl_out_out h hx hh ha hq hA hnB]; exact e

/-- a sibling of the new place is outside the branch -/
theorem sib_out {r : Row} (hr : r ∈ rows) (hne : r ≠ x) (hp : par rows r = p.map Row.pk) : ¬ InB x r := by
  rintro (e | he)
  · exact hne e
  · cases p with
    | none =>
      rw [Option.map_none, par_eq_none h hr] at hp
      have := h.one x hx
      unfold encl at he
      omega
    | some q =>
      obtain ⟨hq, hnB, _⟩ := hh.some q rfl
      rw [Option.map_some, par_row h hq hr] at hp
      exact hnB (inner_inB hx hp he)

/-- **The jump of a branch into a hole moves the branch to the slot of the hole.** -/
theorem jump_forest {s : Slot} (hs : SlotAt rows (· ≠ x) (p.map Row.pk) T l s) :
    PF (rows.map (jrow x T l p)) = (PF rows).move x.pk (p.map Row.pk) s := by
  have hni := jump_ni h hx hh
  have hpull := (shows_PF hni).pullback (· ∈ rows) (jrow x T l p) (by intro r'; simp [List.mem_map]) (by
    intro a b ha hb e
    simp only [jrow_pk] at e
    exact h.pk_inj ha hb e)
  simp only [jrow_pk] at hpull
  have hx1 : (jrow x T l p x).tree = T ∧ (jrow x T l p x).lft = l := by
    rw [jrow_in h hx hx (Or.inl rfl)]; exact ⟨rfl, by simp only; omega⟩
  have hbef : ∀ r ∈ rows, ¬ InB x r → (befH T l r ↔ lt (jrow x T l p r) (jrow x T l p x)) := by
    intro r hr hB
    rw [lt_iff, hx1.1, hx1.2, jrow_out h hx hr hB]; rfl
  have haft : ∀ r ∈ rows, ¬ InB x r → (aftH T l r ↔ lt (jrow x T l p x) (jrow x T l p r)) := by
    intro r hr hB
    rw [lt_iff, hx1.1, hx1.2, jrow_out h hx hr hB]
    unfold aftH
    omega
  refine Shows.move (shows_PF h) hpull hx h.injOn ?_ ?_ ?_ (jump_par_x h hx hh) ?_
  · intro r hr hne; exact jump_par_out h hx hh hr hne
  · intro r q hr hq hrx hqx hpar hlt
    by_cases hR : InB x r
    · have hRx : encl x r := by rcases hR with e | e; exact absurd e hrx; exact e
      have hQ : InB x q := by
        rcases par_cases h hr with ⟨e, hn⟩ | ⟨c, hi, e⟩
        · exact absurd hRx (hn x hx)
        · rw [hpar, par_row h hi.1 hq] at e
          exact inB_down (inner_inB hx hi hRx) e.2.1
      rw [lt_iff] at hlt ⊢
      rw [jrow_in h hx hr hR, jrow_in h hx hq hQ]
      have := hR.tree
      have := hQ.tree
      simp only [true_and]
      omega
    · have hQ : ¬ InB x q := by
        intro hQ
        have hQx : encl x q := by rcases hQ with e | e; exact absurd e hqx; exact e
        rcases par_cases h hq with ⟨e, hn⟩ | ⟨c, hi, e⟩
        · exact hn x hx hQx
        · rw [← hpar, par_row h hi.1 hr] at e
          exact hR (inB_down (inner_inB hx hi hQx) e.2.1)
      rw [jrow_out h hx hr hR, jrow_out h hx hq hQ]; exact hlt
  · intro a b _ _ hlt; exact lt_asymm hlt
  · have tr1 : ∀ {a b : Row}, aftH T l a → lt a b → aftH T l b := by
      intro a b h1 h2; rw [lt_iff] at h2; unfold aftH at *; omega
    have tr2 : ∀ {a b : Row}, befH T l a → lt b a → befH T l b := by
      intro a b h1 h2; rw [lt_iff] at h2; unfold befH at *; omega
    cases s with
    | first => intro r hr hp; exact (haft r hr.1 (sib_out h hx hh hr.1 hr.2 hp)).1 (hs r hr.1 hr.2 hp)
    | last => intro r hr hp; exact (hbef r hr.1 (sib_out h hx hh hr.1 hr.2 hp)).1 (hs r hr.1 hr.2 hp)
    | before t =>
      obtain ⟨tr, h1, h2, h3, h4, h5, h6⟩ := hs
      refine ⟨tr, ⟨h1, h2⟩, h3, h4, (haft tr h1 (sib_out h hx hh h1 h2 h4)).1 h5, ?_, ?_⟩
      · intro r hr hp hlt; exact (hbef r hr.1 (sib_out h hx hh hr.1 hr.2 hp)).1 (h6 r hr.1 hr.2 hp hlt)
      · intro r hr hp hlt; exact (haft r hr.1 (sib_out h hx hh hr.1 hr.2 hp)).1 (tr1 h5 hlt)
    | after t =>
      obtain ⟨tr, h1, h2, h3, h4, h5, h6⟩ := hs
      refine ⟨tr, ⟨h1, h2⟩, h3, h4, (hbef tr h1 (sib_out h hx hh h1 h2 h4)).1 h5, ?_, ?_⟩
      · intro r hr hp hlt; exact (hbef r hr.1 (sib_out h hx hh hr.1 hr.2 hp)).1 (tr2 h5 hlt)
      · intro r hr hp hlt; exact (haft r hr.1 (sib_out h hx hh hr.1 hr.2 hp)).1 (h6 r hr.1 hr.2 hp hlt)

omit h hx hh in
theorem jump_data : data (rows.map (jrow x T l p)) = data rows := by
  unfold data
  rw [List.map_map]
  apply List.map_congr_left
  intro r _
  simp [jrow_pk, jrow_vals]

end jump

/-! ### A new row -/

section insert

variable {x : Row} {T l : Int} {p : Option Row}

variable (h : NI rows) (hh : Hole rows (fun _ => False) T l 2 p) (hk : ∀ r ∈ rows, r.pk ≠ x.pk)
  (hxT : x.tree = T) (hxl : x.lft = l) (hxr : x.rgt = l + 1) (hxd : x.depth = depthIn p)
include h hh hk hxT hxl hxr hxd

theorem ins_encl_x {a : Row} (ha : a ∈ rows) : encl a x ↔ ∃ q, p = some q ∧ (a = q ∨ encl a q) := by
  constructor
  · intro he
    unfold encl at he
    have ht : a.tree = T := he.1.trans hxT
    have f1 := hh.free a.lft (ht ▸ EndP.lft ha)
    have f2 := hh.free a.rgt (ht ▸ EndP.rgt ha)
    cases p with
    | none => exact absurd ht ((hh.none rfl).2 a ha)
    | some q => exact ⟨q, rfl, (hh.some q rfl).2.2.2.2.2 a ha id ht (by omega) (by omega)⟩
  · rintro ⟨q, hq, hor⟩
    obtain ⟨g1, _, g2, g3, g4, _⟩ := hh.some q hq
    unfold encl
    rcases hor with rfl | he
    · exact ⟨by omega, by omega, by omega⟩
    · unfold encl at he
      exact ⟨by omega, by omega, by omega⟩

theorem ins_x_encl {b : Row} (hb : b ∈ rows) : ¬ encl x b := by
  intro he
  unfold encl at he
  have hl := h.lr b hb
  omega

theorem ins_above_old {b : Row} (hb : b ∈ rows) : above (rows ++ [x]) b = above rows b := by
  have := ins_x_encl h hh hk hxT hxl hxr hxd hb
  simp [above, List.countP_append, this]

theorem ins_above_x : (above (rows ++ [x]) x : Int) + 1 = depthIn p := by
  have e0 : above (rows ++ [x]) x = rows.countP (fun a => decide (encl a x)) := by
    simp [above, List.countP_append, encl_irrefl]
  rw [e0]
  cases p with
  | none =>
    have : rows.countP (fun a => decide (encl a x)) = 0 := by
      rw [List.countP_eq_zero]
      intro a ha
      simp [ins_encl_x h hh hk hxT hxl hxr hxd ha]
    rw [this]; rfl
  | some q =>
    obtain ⟨hq, _⟩ := hh.some q rfl
    have : rows.countP (fun a => decide (encl a x)) = rows.countP (fun a => decide (a = q) || decide (encl a q)) := by
      apply List.countP_congr
      intro a ha
      simp [ins_encl_x h hh hk hxT hxl hxr hxd ha]
    rw [this, List.countP_eq_countP_filter_add rows _ (fun a => decide (a = q)), List.countP_filter, List.countP_filter]
    have c1 : rows.countP (fun a => (decide (a = q) || decide (encl a q)) && decide (a = q)) = 1 := by
      rw [show (fun a => (decide (a = q) || decide (encl a q)) && decide (a = q)) = (fun a => a == q) from ?_]
      · have := List.nodup_iff_count_eq_one.1 h.nodup q hq
        rwa [List.count] at this
      · funext a; by_cases e : a = q <;> simp [e]
    have c2 : rows.countP (fun a => (decide (a = q) || decide (encl a q)) && !decide (a = q)) = above rows q := by
      apply List.countP_congr
      intro a _
      by_cases e : a = q
      · subst e; simp [encl_irrefl]
      · simp [e]
    rw [c1, c2, depthIn, h.depth q hq]
    omega

theorem ins_ni : NI (rows ++ [x]) where
  pks := by
    rw [List.map_append, List.nodup_append]
    refine ⟨h.pks, by simp, ?_⟩
    intro a ha b hb
    obtain ⟨r, hr, rfl⟩ := List.mem_map.1 ha
    simp only [List.map_cons, List.map_nil, List.mem_singleton] at hb
    subst hb
    exact hk r hr
  lr := by
    intro r hr
    rcases List.mem_append.1 hr with hr | hr
    · exact h.lr r hr
    · rw [List.mem_singleton.1 hr]; omega
  one := by
    intro r hr
    rcases List.mem_append.1 hr with hr | hr
    · exact h.one r hr
    · rw [List.mem_singleton.1 hr]
      cases p with
      | none => have := (hh.none rfl).1; omega
      | some q =>
        obtain ⟨g1, _, _, g3, _⟩ := hh.some q rfl
        have := h.one q g1
        omega
  tree := by
    intro r hr
    rcases List.mem_append.1 hr with hr | hr
    · exact h.tree r hr
    · rw [List.mem_singleton.1 hr, hxT]; exact hh.tree
  dist := by
    intro a ha b hb hne ht
    have key : ∀ c ∈ rows, c.tree = T → (c.lft < l ∨ l + 2 ≤ c.lft) ∧ (c.rgt < l ∨ l + 2 ≤ c.rgt) :=
      fun c hc e => ⟨hh.free _ (e ▸ EndP.lft hc), hh.free _ (e ▸ EndP.rgt hc)⟩
    rcases List.mem_append.1 ha with ha | ha <;> rcases List.mem_append.1 hb with hb | hb
    · exact h.dist a ha b hb hne ht
    · rw [List.mem_singleton.1 hb] at ht ⊢
      have := key a ha (ht.trans hxT)
      omega
    · rw [List.mem_singleton.1 ha] at ht ⊢
      have := key b hb (ht.symm.trans hxT)
      omega
    · exact absurd ((List.mem_singleton.1 ha).trans (List.mem_singleton.1 hb).symm) hne
  lam := by
    intro a ha b hb ht
    have key : ∀ c ∈ rows, c.tree = T → (c.lft < l ∨ l + 2 ≤ c.lft) ∧ (c.rgt < l ∨ l + 2 ≤ c.rgt) :=
      fun c hc e => ⟨hh.free _ (e ▸ EndP.lft hc), hh.free _ (e ▸ EndP.rgt hc)⟩
    rcases List.mem_append.1 ha with ha | ha <;> rcases List.mem_append.1 hb with hb | hb
    · exact h.lam a ha b hb ht
    · rw [List.mem_singleton.1 hb] at ht ⊢
      have := key a ha (ht.trans hxT)
      omega
    · rw [List.mem_singleton.1 ha] at ht ⊢
      have := key b hb (ht.symm.trans hxT)
      omega
    · rw [List.mem_singleton.1 ha, List.mem_singleton.1 hb]; omega
  root := by
    intro b hb hl
    rcases List.mem_append.1 hb with hb | hb
    · obtain ⟨q, h1, h2, h3⟩ := h.root b hb hl
      exact ⟨q, List.mem_append_left _ h1, h2, h3⟩
    · rw [List.mem_singleton.1 hb] at hl ⊢
      cases p with
      | none => exact absurd (hxl.trans (hh.none rfl).1) hl
      | some q =>
        obtain ⟨hq, _⟩ := hh.some q rfl
        have : ∃ q' ∈ rows, q'.lft = 1 ∧ (q' = q ∨ encl q' q) := by
          by_cases e : q.lft = 1
          · exact ⟨q, hq, e, Or.inl rfl⟩
          · obtain ⟨q', h1, h2, h3⟩ := h.root q hq e; exact ⟨q', h1, h2, Or.inr h3⟩
        obtain ⟨q', h1, h2, h3⟩ := this
        exact ⟨q', List.mem_append_left _ h1, h2, (ins_encl_x h hh hk hxT hxl hxr hxd h1).2 ⟨q, rfl, h3⟩⟩
  depth := by
    intro b hb
    rcases List.mem_append.1 hb with hb | hb
    · rw [ins_above_old h hh hk hxT hxl hxr hxd hb]; exact h.depth b hb
    · rw [List.mem_singleton.1 hb]
      have := ins_above_x h hh hk hxT hxl hxr hxd
      omega

theorem ins_par_old {b : Row} (hb : b ∈ rows) : par (rows ++ [x]) b = par rows b := by
  have hni := ins_ni h hh hk hxT hxl hxr hxd
  have hb' : b ∈ rows ++ [x] := List.mem_append_left _ hb
  rcases par_cases h hb with ⟨e, _⟩ | ⟨q, hi, e⟩
  · rw [e, par_eq_none hni hb']; exact (par_eq_none h hb).1 e
  · rw [e]
    refine par_of_inner hni hb' ⟨List.mem_append_left _ hi.1, hi.2.1, ?_⟩
    intro a ha he
    rcases List.mem_append.1 ha with ha | ha
    · exact hi.2.2 a ha he
    · rw [List.mem_singleton.1 ha] at he
      exact absurd he (ins_x_encl h hh hk hxT hxl hxr hxd hb)

theorem ins_par_x : par (rows ++ [x]) x = p.map Row.pk := by
  have hni := ins_ni h hh hk hxT hxl hxr hxd
  have hx' : x ∈ rows ++ [x] := by simp
  cases p with
  | none =>
    rw [Option.map_none, par_eq_none hni hx', hxl]
    exact (hh.none rfl).1
  | some q =>
    obtain ⟨hq, _⟩ := hh.some q rfl
    rw [Option.map_some]
    refine par_of_inner hni hx' ⟨List.mem_append_left _ hq, ?_, ?_⟩
    · rw [ins_encl_x h hh hk hxT hxl hxr hxd hq]; exact ⟨q, rfl, Or.inl rfl⟩
    · intro a ha he
      rcases List.mem_append.1 ha with ha | ha
      · obtain ⟨q', e, hor⟩ := (ins_encl_x h hh hk hxT hxl hxr hxd ha).1 he
        cases e
        exact hor
      · rw [List.mem_singleton.1 ha] at he
        exact absurd he (encl_irrefl _)

/-- **A new row in a hole stands at the slot of the hole.** -/
theorem ins_forest {s : Slot} (hs : SlotAt rows (fun _ => True) (p.map Row.pk) T l s) :
    PF (rows ++ [x]) = (PF rows).put (p.map Row.pk) s x.pk := by
  have hni := ins_ni h hh hk hxT hxl hxr hxd
  have hF : Shows (PF (rows ++ [x])) (fun r => r ∈ rows ∨ r = x) Row.pk (par (rows ++ [x])) lt :=
    (shows_PF hni).congr (by intro r; simp) (fun _ _ => rfl) (fun _ _ _ _ _ h => h)
  have hxn : x ∉ rows := fun hx => hk x hx rfl
  have hbef : ∀ {r}, befH T l r ↔ lt r x := by intro r; rw [lt_iff, hxT, hxl]; rfl
  have haft : ∀ {r}, aftH T l r ↔ lt x r := by intro r; rw [lt_iff, hxT, hxl]; unfold aftH; omega
  refine Shows.put (shows_PF h) hF hxn ?_ (fun _ _ _ _ _ h => h) (fun _ _ _ _ h => lt_asymm h) h.injOn
    (ins_par_x h hh hk hxT hxl hxr hxd) ?_
  · intro r hr; exact ins_par_old h hh hk hxT hxl hxr hxd hr
  · cases s with
    | first => intro r hr hp; exact haft.1 (hs r hr trivial hp)
    | last => intro r hr hp; exact hbef.1 (hs r hr trivial hp)
    | before t =>
      obtain ⟨tr, h1, _, h3, h4, h5, h6⟩ := hs
      exact ⟨tr, h1, h3, h4, haft.1 h5, fun r hr hp hlt => hbef.1 (h6 r hr trivial hp hlt),
        fun r hr hp hlt => lt_trans (haft.1 h5) hlt⟩
    | after t =>
      obtain ⟨tr, h1, _, h3, h4, h5, h6⟩ := hs
      exact ⟨tr, h1, h3, h4, hbef.1 h5, fun r hr hp hlt => lt_trans hlt (hbef.1 h5),
        fun r hr hp hlt => haft.1 (h6 r hr trivial hp hlt)⟩

end insert

/-! ### Fullness -/

/-- every number covered by a row is an endpoint in its tree or belongs to the holes `H` -/
def Full (rows : List Row) (H : Int → Int → Prop) : Prop :=
  ∀ r ∈ rows, ∀ i, r.lft ≤ i → i ≤ r.rgt → EndP rows r.tree i ∨ H r.tree i

theorem NInv.Full (h : NInv rows) : Full rows (fun _ _ => False) :=
  fun r hr i h1 h2 => Or.inl (h.full r hr i h1 h2)

theorem NInv.of_full (h : NI rows) {H : Int → Int → Prop} (hf : NS.Full rows H) (hH : ∀ r ∈ rows, ∀ i, ¬ H r.tree i) : NInv rows :=
  { toNI := h, full := fun r hr i h1 h2 => (hf r hr i h1 h2).resolve_right (hH r hr i) }

theorem Full.mono {H H' : Int → Int → Prop} (hf : Full rows H) (hH : ∀ t i, H t i → H' t i) : Full rows H' :=
  fun r hr i h1 h2 => (hf r hr i h1 h2).imp id (hH _ _)

theorem endP_gap (h : NI rows) {T start offset t e : Int} (he : EndP rows t e) :
    EndP (rows.map (gapRow T start offset)) t (gapPhi T start offset t e) := by
  obtain ⟨r, hr, ht, hor⟩ := he
  refine ⟨gapRow T start offset r, List.mem_map_of_mem hr, ?_, ?_⟩
  · rw [gapRow_eq (h.lr r hr)]; exact ht
  · rw [gapRow_eq (h.lr r hr)]
    rcases hor with e | e
    · left; rw [← e, ← ht]
    · right; rw [← e, ← ht]

/-- opening a gap in a full table leaves just this hole -/
theorem full_open (h : NI rows) (hf : Full rows (fun _ _ => False)) {T start offset : Int} (ho : 0 ≤ offset) :
    Full (rows.map (gapRow T start offset)) (fun t i => t = T ∧ start ≤ i ∧ i < start + offset) := by
  intro r' hr' i h1 h2
  obtain ⟨r, hr, rfl⟩ := List.mem_map.1 hr'
  have hlr := h.lr r hr
  rw [gapRow_eq hlr] at h1 h2 ⊢
  simp only at h1 h2 ⊢
  unfold gapPhi at h1 h2
  by_cases ht : r.tree = T
  · by_cases hi : i < start
    · left
      have := (hf r hr i (by split at h1 <;> omega) (by split at h2 <;> omega)).resolve_right id
      have := endP_gap h (T := T) (start := start) (offset := offset) this
      rwa [gapPhi, if_neg (by omega)] at this
    · by_cases hi' : i < start + offset
      · right; exact ⟨ht, by omega, by omega⟩
      · left
        have := (hf r hr (i - offset) (by split at h1 <;> omega) (by split at h2 <;> omega)).resolve_right id
        have := endP_gap h (T := T) (start := start) (offset := offset) this
        rwa [gapPhi, if_pos ⟨ht, by omega⟩, show i - offset + offset = i by omega] at this
  · left
    rw [if_neg (by omega)] at h1 h2
    have := (hf r hr i h1 h2).resolve_right id
    have := endP_gap h (T := T) (start := start) (offset := offset) this
    rwa [gapPhi, if_neg (by omega)] at this

/-- closing the hole `[a, b]` of the tree `T`, the last one there -/
theorem full_close (h : NI rows) {H : Int → Int → Prop} (hf : Full rows H) {T a b : Int} (hab : a ≤ b)
    (hfree : ∀ e, EndP rows T e → a ≤ e → b < e) (hH : ∀ i, H T i → i ≤ b) :
    Full (rows.map (gapRow T a (-(b - a + 1)))) (fun t i => (t ≠ T ∨ i < a) ∧ H t i) := by
  intro r' hr' i h1 h2
  obtain ⟨r, hr, rfl⟩ := List.mem_map.1 hr'
  have hlr := h.lr r hr
  rw [gapRow_eq hlr] at h1 h2 ⊢
  simp only at h1 h2 ⊢
  unfold gapPhi at h1 h2
  by_cases ht : r.tree = T
  · have f1 := hfree r.lft (ht ▸ EndP.lft hr)
    have f2 := hfree r.rgt (ht ▸ EndP.rgt hr)
    by_cases hi : i < a
    · rcases hf r hr i (by split at h1 <;> omega) (by split at h2 <;> omega) with he | he
      · left
        have := endP_gap h (T := T) (start := a) (offset := -(b - a + 1)) he
        rwa [gapPhi, if_neg (by omega)] at this
      · exact Or.inr ⟨Or.inr hi, he⟩
    · rcases hf r hr (i + (b - a + 1)) (by split at h1 <;> omega) (by split at h2 <;> omega) with he | he
      · left
        have := endP_gap h (T := T) (start := a) (offset := -(b - a + 1)) he
        rwa [gapPhi, if_pos ⟨ht, by omega⟩, show i + (b - a + 1) + -(b - a + 1) = i by omega] at this
      · rw [ht] at he
        have := hH _ he
        omega
  · rw [if_neg (by omega)] at h1 h2
    rcases hf r hr i h1 h2 with he | he
    · left
      have := endP_gap h (T := T) (start := a) (offset := -(b - a + 1)) he
      rwa [gapPhi, if_neg (by omega)] at this
    · exact Or.inr ⟨Or.inl ht, he⟩

/-- filling the hole with a new row -/
theorem full_insert {x : Row} {T l : Int} (hxT : x.tree = T) (hxl : x.lft = l) (hxr : x.rgt = l + 1)
    (hf : Full rows (fun t i => t = T ∧ l ≤ i ∧ i < l + 2)) : Full (rows ++ [x]) (fun _ _ => False) := by
  intro r hr i h1 h2
  left
  rcases List.mem_append.1 hr with hr | hr
  · rcases hf r hr i h1 h2 with ⟨q, hq, h3, h4⟩ | ⟨h3, h4, h5⟩
    · exact ⟨q, List.mem_append_left _ hq, h3, h4⟩
    · exact ⟨x, by simp, hxT.trans h3.symm, by omega⟩
  · rw [List.mem_singleton.1 hr] at h1 h2 ⊢
    exact ⟨x, by simp, rfl, by omega⟩

/-- filling the hole with a branch leaves the old place of the branch as a hole -/
theorem full_jump {x : Row} {T l : Int} {p : Option Row} (h : NI rows) (hx : x ∈ rows)
    (hout : x.tree = T → x.rgt < l ∨ l + (x.rgt - x.lft + 1) ≤ x.lft)
    (hf : Full rows (fun t i => t = T ∧ l ≤ i ∧ i < l + (x.rgt - x.lft + 1))) :
    Full (rows.map (jrow x T l p)) (fun t i => t = x.tree ∧ x.lft ≤ i ∧ i ≤ x.rgt) := by
  have hlx := h.lr x hx
  -- the numbers of the branch are all used, so all the new ones are
  have hnew : ∀ i, l ≤ i → i < l + (x.rgt - x.lft + 1) → EndP (rows.map (jrow x T l p)) T i := by
    intro i h1 h2
    rcases hf x hx (i - (l - x.lft)) (by omega) (by omega) with ⟨q, hq, h3, h4⟩ | ⟨h3, h4, h5⟩
    · have hB := h.inB_of_end hx hq h3 h4 (by omega) (by omega)
      refine ⟨jrow x T l p q, List.mem_map_of_mem hq, ?_, ?_⟩
      · rw [jrow_in h hx hq hB]
      · rw [jrow_in h hx hq hB]; simp only; omega
    · have := hout h3; omega
  intro r' hr' i h1 h2
  obtain ⟨r, hr, rfl⟩ := List.mem_map.1 hr'
  by_cases hB : InB x r
  · left
    have hb := jrow_bounds (T := T) (l := l) (p := p) h hx hr hB
    rw [hb.1]
    exact hnew i (by omega) (by omega)
  · rw [jrow_out h hx hr hB] at h1 h2 ⊢
    rcases hf r hr i h1 h2 with ⟨q, hq, h3, h4⟩ | ⟨h3, h4, h5⟩
    · by_cases hQ : InB x q
      · right
        have := hQ.tree
        have hlq := h.lr q hq
        rcases hQ with rfl | he
        · exact ⟨h3.symm, by omega, by omega⟩
        · unfold encl at he; exact ⟨by omega, by omega, by omega⟩
      · left
        exact ⟨jrow x T l p q, List.mem_map_of_mem hq, by rw [jrow_out h hx hq hQ]; exact h3, by rw [jrow_out h hx hq hQ]; exact h4⟩
    · left; rw [h3]; exact hnew i h4 h5

end Verif.NS
