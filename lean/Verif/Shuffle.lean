/-
Putting a node into a gap when the rows right of the gap may change their order.
-/
import Verif.SpecShuffle
import Verif.ForestLemmas

namespace Verif

variable {ρ : Type}

/-- The slot `s` below `p` is the gap between the rows with `Left` and those without. -/
def GapSlot (R : ρ → Prop) (pk : ρ → Nat) (par : ρ → Option Nat) (lt : ρ → ρ → Prop) (Left : ρ → Prop) (p : Option Nat) : Slot → Prop
  | .first => ∀ r, R r → par r = p → ¬ Left r
  | .last => ∀ r, R r → par r = p → Left r
  | .before t => ∃ tr, R tr ∧ pk tr = t ∧ par tr = p ∧ ¬ Left tr ∧ ∀ r, R r → par r = p → lt r tr → Left r
  | .after t => ∃ tr, R tr ∧ pk tr = t ∧ par tr = p ∧ Left tr ∧ ∀ r, R r → par r = p → lt tr r → ¬ Left r

/-- the order with `x` in the gap -/
def gapLt (lt : ρ → ρ → Prop) (Left : ρ → Prop) (x a b : ρ) : Prop :=
  (a = x ∧ b ≠ x ∧ ¬ Left b) ∨ (a ≠ x ∧ b = x ∧ Left a) ∨ (a ≠ x ∧ b ≠ x ∧ lt a b)

section

variable {G F' : Forest} {R : ρ → Prop} {pk : ρ → Nat} {par par' : ρ → Option Nat} {lt lt' : ρ → ρ → Prop} {Left : ρ → Prop}
  {x : ρ} {p : Option Nat} {s : Slot}

theorem gap_asym (hx : ¬ R x) (h : AsymOn R lt) : AsymOn (fun r => R r ∨ r = x) (gapLt lt Left x) := by
  rintro a b ha hb (⟨rfl, h1, h2⟩ | ⟨h1, rfl, h2⟩ | ⟨h1, h2, h3⟩) (⟨e1, h4, h5⟩ | ⟨h4, e1, h5⟩ | ⟨h4, h5, h6⟩)
  · exact h1 e1
  · exact h2 h5
  · exact h5 rfl
  · exact h5 h2
  · exact h1 e1
  · exact h4 rfl
  · exact h2 e1
  · exact h1 e1
  · exact h a b (ha.resolve_right h1) (hb.resolve_right h2) h3 h6

variable (hG : Shows G R pk par lt) (hF : Shows F' (fun r => R r ∨ r = x) pk par' lt') (hx : ¬ R x)
  (hpar : ∀ r, R r → par' r = par r) (hasym : AsymOn R lt) (hasym' : AsymOn (fun r => R r ∨ r = x) lt') (hinj : InjOn R pk)
  (hp : par' x = p) (hdown : ∀ r q, R r → R q → par r = p → par q = p → lt r q → Left q → Left r)

include hG hx hpar hasym hinj hp hdown

/-- The forest with `x` in the gap. -/
theorem gap_shows (hs : GapSlot R pk par lt Left p s) :
    Shows (G.put p s (pk x)) (fun r => R r ∨ r = x) pk par' (gapLt lt Left x) := by
  classical
  have key : ∃ B, Shows B (fun r => R r ∨ r = x) pk par' (gapLt lt Left x) := by
    have hl : ∀ q, ∃ l : List ρ, l.Pairwise (gapLt lt Left x) ∧ ∀ r, r ∈ l ↔ (R r ∨ r = x) ∧ par' r = q := by
      intro q
      obtain ⟨l, _, so, m⟩ := hG.lists q
      have hne : ∀ r ∈ l, r ≠ x := fun r hr e => hx (e ▸ ((m r).1 hr).1)
      have so' : l.Pairwise (gapLt lt Left x) :=
        so.imp_of_mem (fun {a b} ha hb hab => Or.inr (Or.inr ⟨hne a ha, hne b hb, hab⟩))
      by_cases hq : q = p
      · subst hq
        refine ⟨l.filter (fun r => decide (Left r)) ++ x :: l.filter (fun r => !decide (Left r)), ?_, ?_⟩
        · rw [List.pairwise_append]
          refine ⟨so'.filter _, ?_, ?_⟩
          · rw [List.pairwise_cons]
            refine ⟨?_, so'.filter _⟩
            intro r hr
            obtain ⟨hr, hl⟩ := List.mem_filter.1 hr
            exact Or.inl ⟨rfl, hne r hr, by simpa using hl⟩
          · intro a ha b hb
            obtain ⟨ha, hla⟩ := List.mem_filter.1 ha
            rcases List.mem_cons.1 hb with rfl | hb
            · exact Or.inr (Or.inl ⟨hne a ha, rfl, by simpa using hla⟩)
            · obtain ⟨hb, hlb⟩ := List.mem_filter.1 hb
              simp only [decide_eq_true_eq, Bool.not_eq_true', decide_eq_false_iff_not] at hla hlb
              refine Or.inr (Or.inr ⟨hne a ha, hne b hb, ?_⟩)
              have hab : a ≠ b := fun e => hlb (e ▸ hla)
              have : lt a b ∨ lt b a := by
                clear so'
                induction l with
                | nil => cases ha
                | cons c l ih =>
                  clear ih
                  obtain ⟨i, hi, rfl⟩ := List.getElem_of_mem ha
                  obtain ⟨j, hj, rfl⟩ := List.getElem_of_mem hb
                  rw [List.pairwise_iff_getElem] at so
                  rcases Nat.lt_trichotomy i j with h | h | h
                  · exact Or.inl (so i j hi hj h)
                  · subst h; exact absurd rfl hab
                  · exact Or.inr (so j i hj hi h)
              rcases this with h | h
              · exact h
              · have h1 := (m b).1 hb
                have h2 := (m a).1 ha
                exact absurd (hdown b a h1.1 h2.1 h1.2 h2.2 h hla) hlb
        · intro r
          simp only [List.mem_append, List.mem_cons, List.mem_filter, m, decide_eq_true_eq, Bool.not_eq_true',
            decide_eq_false_iff_not]
          constructor
          · rintro (⟨⟨h1, h2⟩, _⟩ | rfl | ⟨⟨h1, h2⟩, _⟩)
            · exact ⟨Or.inl h1, by rw [hpar r h1, h2]⟩
            · exact ⟨Or.inr rfl, hp⟩
            · exact ⟨Or.inl h1, by rw [hpar r h1, h2]⟩
          · rintro ⟨h1 | rfl, h2⟩
            · rw [hpar r h1] at h2
              by_cases hl : Left r
              · exact Or.inl ⟨⟨h1, h2⟩, hl⟩
              · exact Or.inr (Or.inr ⟨⟨h1, h2⟩, hl⟩)
            · exact Or.inr (Or.inl rfl)
      · refine ⟨l, so', ?_⟩
        intro r
        rw [m]
        constructor
        · rintro ⟨a, b⟩; exact ⟨Or.inl a, by rw [hpar r a, b]⟩
        · rintro ⟨a | rfl, b⟩
          · exact ⟨a, by rw [← hpar r a, b]⟩
          · exact absurd (b.symm.trans hp) hq
    choose l hl1 hl2 using hl
    exact ⟨fun q => (l q).map pk, ⟨fun q => ⟨l q, rfl, hl1 q, hl2 q⟩⟩⟩
  obtain ⟨B, hB⟩ := key
  have hne : ∀ r, R r → r ≠ x := fun r hr e => hx (e ▸ hr)
  have : B = G.put p s (pk x) := by
    refine hG.put hB hx hpar (fun r q hr hq _ h => Or.inr (Or.inr ⟨hne r hr, hne q hq, h⟩)) (gap_asym hx hasym) hinj hp ?_
    cases s with
    | first => intro r hr hpr; exact Or.inl ⟨rfl, hne r hr, hs r hr hpr⟩
    | last => intro r hr hpr; exact Or.inr (Or.inl ⟨hne r hr, rfl, hs r hr hpr⟩)
    | before t =>
      obtain ⟨tr, h1, h2, h3, h4, h5⟩ := hs
      refine ⟨tr, h1, h2, h3, Or.inl ⟨rfl, hne tr h1, h4⟩, ?_, ?_⟩
      · intro r hr hpr h; exact Or.inr (Or.inl ⟨hne r hr, rfl, h5 r hr hpr h⟩)
      · intro r hr hpr h; exact Or.inl ⟨rfl, hne r hr, fun hl => h4 (hdown tr r h1 hr h3 hpr h hl)⟩
    | after t =>
      obtain ⟨tr, h1, h2, h3, h4, h5⟩ := hs
      refine ⟨tr, h1, h2, h3, Or.inr (Or.inl ⟨hne tr h1, rfl, h4⟩), ?_, ?_⟩
      · intro r hr hpr h; exact Or.inr (Or.inl ⟨hne r hr, rfl, hdown r tr hr h1 hpr h3 h h4⟩)
      · intro r hr hpr h; exact Or.inl ⟨rfl, hne r hr, h5 r hr hpr h⟩
  exact this ▸ hB

include hF hasym'

/-- `x` stands in the gap, the rows left of it are as before; if every order is kept, so are the others. -/
theorem gap_put (hs : GapSlot R pk par lt Left p s)
    (hltL : ∀ r q, R r → R q → par r = par q → lt r q → (par r = p → Left r) → lt' r q)
    (hl : ∀ r, R r → par r = p → Left r → lt' r x) (hr : ∀ r, R r → par r = p → ¬ Left r → lt' x r) :
    (G.put p s (pk x)).UpToRight F' p (pk x) ∧
    ((∀ r q, R r → R q → par r = p → par q = p → ¬ Left r → lt r q → lt' r q) → F' = G.put p s (pk x)) := by
  classical
  have hB := gap_shows hG hx hpar hasym hinj hp hdown hs
  have hne : ∀ r, R r → r ≠ x := fun r hr e => hx (e ▸ hr)
  generalize G.put p s (pk x) = B at hB
  constructor
  · constructor
    · intro q hq
      obtain ⟨l, e, so, m⟩ := hB.lists q
      obtain ⟨l', e', so', m'⟩ := hF.lists q
      rw [e, e']
      congr 1
      refine sorted_unique hasym' (fun r hr => ((m' r).1 hr).1) so' (so.imp_of_mem ?_) (fun r => by rw [m, m'])
      intro a b ha hb hab
      obtain ⟨ha, hpa⟩ := (m a).1 ha
      obtain ⟨hb, hpb⟩ := (m b).1 hb
      have hax : a ≠ x := by rintro rfl; exact hq (hpa.symm.trans hp)
      have hbx : b ≠ x := by rintro rfl; exact hq (hpb.symm.trans hp)
      have ha := ha.resolve_right hax
      have hb := hb.resolve_right hbx
      rw [hpar a ha] at hpa
      rw [hpar b hb] at hpb
      rcases hab with ⟨h1, _⟩ | ⟨_, h1, _⟩ | ⟨_, _, h1⟩
      · exact absurd h1 hax
      · exact absurd h1 hbx
      · exact hltL a b ha hb (by rw [hpa, hpb]) h1 (fun e => absurd (hpa.symm.trans e) hq)
    · obtain ⟨l, e, so, m⟩ := hB.lists p
      obtain ⟨l', e', so', m'⟩ := hF.lists p
      have hxl : x ∈ l := (m x).2 ⟨Or.inr rfl, hp⟩
      have hxl' : x ∈ l' := (m' x).2 ⟨Or.inr rfl, hp⟩
      obtain ⟨l₁, l₂, rfl⟩ := List.append_of_mem hxl
      obtain ⟨m₁, m₂, rfl⟩ := List.append_of_mem hxl'
      have irr : ∀ r, (R r ∨ r = x) → ¬ lt' r r := fun r hr h => hasym' r r hr hr h h
      have nd := pairwise_nodup so (fun r hr h => gap_asym hx hasym (Left := Left) r r ((m r).1 hr).1 ((m r).1 hr).1 h h)
      have nd' := pairwise_nodup so' (fun r hr => irr r ((m' r).1 hr).1)
      rw [List.pairwise_append, List.pairwise_cons] at so so'
      have f1 : ∀ r, r ∈ l₁ ↔ R r ∧ par r = p ∧ Left r := by
        intro r
        constructor
        · intro h
          obtain ⟨h1, h2⟩ := (m r).1 (by simp [h])
          have h3 := so.2.2 r h x (by simp)
          rcases h3 with ⟨_, h3, _⟩ | ⟨h3, _, h4⟩ | ⟨_, h3, _⟩
          · exact absurd rfl h3
          · have h1 := h1.resolve_right h3
            exact ⟨h1, by rw [← hpar r h1, h2], h4⟩
          · exact absurd rfl h3
        · rintro ⟨h1, h2, h3⟩
          have h4 := (m r).2 ⟨Or.inl h1, by rw [hpar r h1, h2]⟩
          rcases List.mem_append.1 h4 with h4 | h4
          · exact h4
          · rcases List.mem_cons.1 h4 with h4 | h4
            · exact absurd h4 (hne r h1)
            · rcases so.2.1.1 r h4 with ⟨_, _, h5⟩ | ⟨h5, _⟩ | ⟨h5, _⟩
              · exact absurd h3 h5
              · exact absurd rfl h5
              · exact absurd rfl h5
      have f2 : ∀ r, r ∈ m₁ ↔ R r ∧ par r = p ∧ Left r := by
        intro r
        constructor
        · intro h
          obtain ⟨h1, h2⟩ := (m' r).1 (by simp [h])
          have h3 := so'.2.2 r h x (by simp)
          have hrx : r ≠ x := by rintro rfl; exact irr r (Or.inr rfl) h3
          have h1 := h1.resolve_right hrx
          rw [hpar r h1] at h2
          refine ⟨h1, h2, ?_⟩
          by_contra hc
          exact hasym' x r (Or.inr rfl) (Or.inl h1) (hr r h1 h2 hc) h3
        · rintro ⟨h1, h2, h3⟩
          have h4 := (m' r).2 ⟨Or.inl h1, by rw [hpar r h1, h2]⟩
          rcases List.mem_append.1 h4 with h4 | h4
          · exact h4
          · rcases List.mem_cons.1 h4 with h4 | h4
            · exact absurd h4 (hne r h1)
            · exact absurd (so'.2.1.1 r h4) (hasym' r x (Or.inl h1) (Or.inr rfl) (hl r h1 h2 h3))
      have e1 : m₁ = l₁ := by
        refine sorted_unique hasym' (fun r hr => Or.inl ((f2 r).1 hr).1) so'.1 (so.1.imp_of_mem ?_) (fun r => by rw [f1, f2])
        intro a b ha hb hab
        obtain ⟨ha, hpa, hla⟩ := (f1 a).1 ha
        obtain ⟨hb, hpb, hlb⟩ := (f1 b).1 hb
        rcases hab with ⟨h1, _⟩ | ⟨_, h1, _⟩ | ⟨_, _, h1⟩
        · exact absurd h1 (hne a ha)
        · exact absurd h1 (hne b hb)
        · exact hltL a b ha hb (by rw [hpa, hpb]) h1 (fun _ => hla)
      subst e1
      refine ⟨m₁.map pk, l₂.map pk, m₂.map pk, by rw [e]; simp, by rw [e']; simp, List.Perm.map _ ?_⟩
      rw [List.nodup_append, List.nodup_cons] at nd nd'
      refine (List.perm_ext_iff_of_nodup nd'.2.1.2 nd.2.1.2).2 ?_
      intro r
      constructor
      · intro h
        have := (m r).2 ((m' r).1 (by simp [h]))
        rcases List.mem_append.1 this with h4 | h4
        · exact absurd rfl (nd'.2.2 r h4 r (by simp [h]))
        · rcases List.mem_cons.1 h4 with rfl | h4
          · exact absurd h nd'.2.1.1
          · exact h4
      · intro h
        have := (m' r).2 ((m r).1 (by simp [h]))
        rcases List.mem_append.1 this with h4 | h4
        · exact absurd rfl (nd.2.2 r h4 r (by simp [h]))
        · rcases List.mem_cons.1 h4 with rfl | h4
          · exact absurd h nd.2.1.1
          · exact h4
  · intro hkeep
    refine hF.unique (hB.congr (fun _ => Iff.rfl) (fun _ _ => rfl) ?_) hasym'
    intro a b ha hb hpp hab
    rcases hab with ⟨rfl, h1, h2⟩ | ⟨h1, rfl, h2⟩ | ⟨h1, h2, h3⟩
    · have hb := hb.resolve_right h1
      rw [hpar b hb, hp] at hpp
      exact hr b hb hpp.symm h2
    · have ha := ha.resolve_right h1
      rw [hpar a ha, hp] at hpp
      exact hl a ha hpp h2
    · have ha := ha.resolve_right h1
      have hb := hb.resolve_right h2
      rw [hpar a ha, hpar b hb] at hpp
      by_cases hpa : par a = p
      · by_cases hla : Left a
        · exact hltL a b ha hb hpp h3 (fun _ => hla)
        · exact hkeep a b ha hb hpa (hpp.symm.trans hpa) hla h3
      · exact hltL a b ha hb hpp h3 (fun e => absurd e hpa)

end

/-- The same for a row that is moved. -/
theorem gap_move {F F' : Forest} {T : ρ → Prop} {pk : ρ → Nat} {par par' : ρ → Option Nat} {lt lt' : ρ → ρ → Prop} {Left : ρ → Prop}
    {x : ρ} {p : Option Nat} {s : Slot}
    (hF : Shows F T pk par lt) (hF' : Shows F' T pk par' lt') (hx : T x) (hinj : InjOn T pk)
    (hpar : ∀ r, T r → r ≠ x → par' r = par r) (hasym : AsymOn T lt) (hasym' : AsymOn T lt') (hp : par' x = p)
    (hdown : ∀ r q, T r → T q → par r = p → par q = p → lt r q → Left q → Left r)
    (hs : GapSlot (fun r => T r ∧ r ≠ x) pk par lt Left p s)
    (hltL : ∀ r q, T r → T q → r ≠ x → q ≠ x → par r = par q → lt r q → (par r = p → Left r) → lt' r q)
    (hl : ∀ r, T r → r ≠ x → par r = p → Left r → lt' r x) (hr : ∀ r, T r → r ≠ x → par r = p → ¬ Left r → lt' x r) :
    (F.move (pk x) p s).UpToRight F' p (pk x) ∧
    ((∀ r q, T r → T q → r ≠ x → q ≠ x → par r = p → par q = p → ¬ Left r → lt r q → lt' r q) → F' = F.move (pk x) p s) := by
  have hG := hF.remove (pk x)
  have e1 : ∀ r, (T r ∧ pk r ≠ pk x) ↔ (T r ∧ r ≠ x) := by
    intro r
    constructor
    · rintro ⟨a, b⟩; exact ⟨a, fun h => b (by rw [h])⟩
    · rintro ⟨a, b⟩; exact ⟨a, fun h => b (hinj r x a hx h)⟩
  have hG' : Shows (F.remove (pk x)) (fun r => T r ∧ r ≠ x) pk par lt :=
    hG.congr e1 (fun _ _ => rfl) (fun _ _ _ _ _ h => h)
  have e2 : ∀ r, ((T r ∧ r ≠ x) ∨ r = x) ↔ T r := by
    intro r
    by_cases h : r = x <;> simp [h, hx]
  have hF2 : Shows F' (fun r => (T r ∧ r ≠ x) ∨ r = x) pk par' lt' :=
    hF'.congr (fun r => (e2 r).symm) (fun _ _ => rfl) (fun _ _ _ _ _ h => h)
  have := gap_put (s := s) (Left := Left) hG' hF2 (by simp) (fun r hr => hpar r hr.1 hr.2) (fun a b ha hb => hasym a b ha.1 hb.1)
    (fun a b ha hb => hasym' a b ((e2 a).1 ha) ((e2 b).1 hb)) (fun a b ha hb => hinj a b ha.1 hb.1) hp
    (fun r q h1 h2 => hdown r q h1.1 h2.1) hs (fun r q h1 h2 => hltL r q h1.1 h2.1 h1.2 h2.2)
    (fun r h1 => hl r h1.1 h1.2) (fun r h1 => hr r h1.1 h1.2)
  exact ⟨this.1, fun hk => this.2 (fun r q h1 h2 => hk r q h1.1 h2.1 h1.2 h2.2)⟩

end Verif
