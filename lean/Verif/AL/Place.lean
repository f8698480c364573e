/-
AL: what one new row, or one row with a new parent, does to the invariant and to the forest.
-/
import Verif.AL.Query

namespace Verif.AL

variable {cfg : Cfg} {db : DB} {rows : List Row}

/-! ### No cycles -/

theorem ai_map {g : Row → Row} (h : AI rows) (hk : ∀ r, (g r).pk = r.pk) (hp : ∀ r, (g r).parent = r.parent) : AI (rows.map g) := by
  refine ⟨?_, ?_, ?_⟩
  · rw [List.map_map]
    have : (Row.pk ∘ g) = Row.pk := funext hk
    rw [this]; exact h.pks
  · intro r hr p e
    obtain ⟨r0, h0, rfl⟩ := List.mem_map.1 hr
    rw [hp] at e
    obtain ⟨q, hq, e'⟩ := h.exist r0 h0 p e
    exact ⟨g q, List.mem_map_of_mem hq, by rw [hk, e']⟩
  · obtain ⟨rank, hr⟩ := h.rank
    refine ⟨rank, ?_⟩
    intro r hrm p e
    obtain ⟨r0, h0, rfl⟩ := List.mem_map.1 hrm
    rw [hp] at e
    rw [hk]
    exact hr r0 h0 p e

theorem ai_add (h : AI rows) {new : Row} (hf : ∀ r ∈ rows, r.pk ≠ new.pk) (hp : ∀ p, new.parent = some p → ∃ q ∈ rows, q.pk = p) :
    AI (rows ++ [new]) := by
  refine ⟨?_, ?_, ?_⟩
  · rw [List.map_append, List.nodup_append]
    refine ⟨h.pks, by simp, ?_⟩
    intro a ha b hb e
    obtain ⟨r, hr, rfl⟩ := List.mem_map.1 ha
    simp only [List.map_cons, List.map_nil, List.mem_singleton] at hb
    exact hf r hr (e.trans hb)
  · intro r hr p e
    rcases List.mem_append.1 hr with hr | hr
    · obtain ⟨q, hq, e'⟩ := h.exist r hr p e
      exact ⟨q, List.mem_append_left _ hq, e'⟩
    · rw [List.mem_singleton] at hr
      subst hr
      obtain ⟨q, hq, e'⟩ := hp p e
      exact ⟨q, List.mem_append_left _ hq, e'⟩
  · obtain ⟨rank, hr⟩ := h.rank
    refine ⟨fun k => if k = new.pk then (match new.parent with | none => 0 | some p => rank p + 1) else rank k, ?_⟩
    intro r hrm p e
    rcases List.mem_append.1 hrm with hrm | hrm
    · obtain ⟨q, hq, rfl⟩ := h.exist r hrm p e
      simp only [if_neg (hf q hq), if_neg (hf r hrm)]
      exact hr r hrm _ e
    · rw [List.mem_singleton] at hrm
      subst hrm
      obtain ⟨q, hq, rfl⟩ := hp p e
      simp only [if_neg (hf q hq), if_true, e]
      omega

theorem ai_move (h : AI rows) {G : Row → Row} {x : Row} (hx : x ∈ rows) (hk : ∀ r ∈ rows, (G r).pk = r.pk)
    (hG : ∀ r ∈ rows, r ≠ x → (G r).parent = r.parent)
    (hp : ∀ p, (G x).parent = some p → (∃ q ∈ rows, q.pk = p) ∧ p ≠ x.pk ∧ ¬ (PF cfg rows).Desc x.pk p) : AI (rows.map G) := by
  classical
  refine ⟨?_, ?_, ?_⟩
  · rw [List.map_map]
    have : rows.map (Row.pk ∘ G) = rows.map Row.pk := List.map_congr_left (fun r hr => hk r hr)
    rw [this]; exact h.pks
  · intro r hr p e
    obtain ⟨r0, h0, rfl⟩ := List.mem_map.1 hr
    have hq : ∃ q ∈ rows, q.pk = p := by
      by_cases hrx : r0 = x
      · subst hrx; exact (hp p e).1
      · rw [hG r0 h0 hrx] at e
        exact h.exist r0 h0 p e
    obtain ⟨q, hq, e'⟩ := hq
    exact ⟨G q, List.mem_map_of_mem hq, by rw [hk q hq, e']⟩
  · obtain ⟨rank, hr⟩ := h.rank
    let B : Nat → Prop := fun k => k = x.pk ∨ (PF cfg rows).Desc x.pk k
    refine ⟨fun k => if B k then rank k + (match (G x).parent with | none => 0 | some p => rank p) + 1 else rank k, ?_⟩
    intro r hrm p e
    obtain ⟨r0, h0, rfl⟩ := List.mem_map.1 hrm
    rw [hk r0 h0]
    by_cases hrx : r0 = x
    · subst hrx
      obtain ⟨_, h1, h2⟩ := hp p e
      have hB : ¬ B p := fun hb => hb.elim h1 h2
      have hB' : B r0.pk := Or.inl rfl
      simp only [if_neg hB, if_pos hB', e]
      omega
    · rw [hG r0 h0 hrx] at e
      have hm : r0.pk ∈ PF cfg rows (some p) := mem_PF.2 ⟨r0, h0, e, rfl⟩
      have hlt := hr r0 h0 p e
      by_cases hB : B p
      · have hB' : B r0.pk := by
          rcases hB with rfl | hB
          · exact Or.inr (.child hm)
          · exact Or.inr (.step hB hm)
        simp only [if_pos hB, if_pos hB']
        omega
      · have hB' : ¬ B r0.pk := by
          rintro (e' | hd)
          · exact hrx (h.pk_inj h0 hx e')
          · obtain ⟨r', h', ek, q, eq, hq⟩ := desc_last hd
            have := h.pk_inj h' h0 ek
            subst this
            rw [e] at eq
            cases eq
            exact hB hq
        simp only [if_neg hB, if_neg hB']
        exact hlt

/-! ### New rows -/

theorem ainv_add (h : AInv cfg rows) {g : Row → Row} (hk : ∀ r, (g r).pk = r.pk) (hgp : ∀ r, (g r).parent = r.parent)
    (hgs : cfg.ordered = false → ∀ r ∈ rows, 1 ≤ (g r).sib)
    (hmono : ∀ a ∈ rows, ∀ b ∈ rows, a.parent = b.parent → lt cfg a b → lt cfg (g a) (g b))
    {new : Row} (hf : ∀ r ∈ rows, r.pk ≠ new.pk) (hp : ∀ p, new.parent = some p → ∃ q ∈ rows, q.pk = p)
    (hn1 : cfg.ordered = false → 1 ≤ new.sib)
    (hcomp : ∀ r ∈ rows, r.parent = new.parent → lt cfg (g r) new ∨ lt cfg new (g r)) : AInv cfg (rows.map g ++ [new]) := by
  have hai : AI (rows.map g ++ [new]) := by
    refine ai_add (ai_map h.toAI hk hgp) ?_ ?_
    · intro r hr
      obtain ⟨r0, h0, rfl⟩ := List.mem_map.1 hr
      rw [hk]; exact hf r0 h0
    · intro p e
      obtain ⟨q, hq, e'⟩ := hp p e
      exact ⟨g q, List.mem_map_of_mem hq, by rw [hk, e']⟩
  refine ⟨hai, ?_, ?_⟩
  · intro ho r hr
    rcases List.mem_append.1 hr with hr | hr
    · obtain ⟨r0, h0, rfl⟩ := List.mem_map.1 hr
      exact hgs ho r0 h0
    · rw [List.mem_singleton] at hr
      subst hr; exact hn1 ho
  · intro a ha b hb hne hpar
    rcases List.mem_append.1 ha with ha | ha <;> rcases List.mem_append.1 hb with hb | hb
    · obtain ⟨a0, ha0, rfl⟩ := List.mem_map.1 ha
      obtain ⟨b0, hb0, rfl⟩ := List.mem_map.1 hb
      rw [hgp, hgp] at hpar
      have hne' : a0 ≠ b0 := fun e => hne (by rw [e])
      rcases h.comp a0 ha0 b0 hb0 hne' hpar with e | e
      · exact Or.inl (hmono a0 ha0 b0 hb0 hpar e)
      · exact Or.inr (hmono b0 hb0 a0 ha0 hpar.symm e)
    · obtain ⟨a0, ha0, rfl⟩ := List.mem_map.1 ha
      rw [List.mem_singleton] at hb
      subst hb
      rw [hgp] at hpar
      exact hcomp a0 ha0 hpar
    · obtain ⟨b0, hb0, rfl⟩ := List.mem_map.1 hb
      rw [List.mem_singleton] at ha
      subst ha
      rw [hgp] at hpar
      exact (hcomp b0 hb0 hpar.symm).symm
    · rw [List.mem_singleton] at ha hb
      exact absurd (ha.trans hb.symm) hne

/-- where the rows are after an addition -/
def addMap (g : Row → Row) (new r : Row) : Row := if r.pk = new.pk then new else g r

theorem forest_add (h : AInv cfg rows) {g : Row → Row} (hk : ∀ r, (g r).pk = r.pk) (hgp : ∀ r, (g r).parent = r.parent)
    (hmono : ∀ a ∈ rows, ∀ b ∈ rows, a.parent = b.parent → lt cfg a b → lt cfg (g a) (g b))
    {new : Row} (hf : ∀ r ∈ rows, r.pk ≠ new.pk) (h' : AInv cfg (rows.map g ++ [new])) {s : Slot}
    (hs : SlotOK (· ∈ rows) Row.pk Row.parent (lt cfg) (fun a b => lt cfg (addMap g new a) (addMap g new b)) new new.parent s) :
    PF cfg (rows.map g ++ [new]) = (PF cfg rows).put new.parent s new.pk := by
  have hnew : new ∉ rows := fun hm => hf new hm rfl
  have hg : ∀ r ∈ rows, addMap g new r = g r := fun r hr => if_neg (hf r hr)
  have hn : addMap g new new = new := if_pos rfl
  have hpk : ∀ r, (addMap g new r).pk = r.pk := by
    intro r
    unfold addMap
    split
    · rename_i e; exact e.symm
    · exact hk r
  have hinj : InjOn (fun r => r ∈ rows ∨ r = new) Row.pk := by
    rintro a b (ha | rfl) (hb | rfl) e
    · exact h.toAI.pk_inj ha hb e
    · exact absurd e (hf a ha)
    · exact absurd e.symm (hf b hb)
    · rfl
  have hF := Shows.pullback (shows_PF h') (fun r => r ∈ rows ∨ r = new) (addMap g new) (by
    intro r'
    constructor
    · intro hr'
      rcases List.mem_append.1 hr' with hr' | hr'
      · obtain ⟨r0, h0, rfl⟩ := List.mem_map.1 hr'
        exact ⟨r0, Or.inl h0, hg r0 h0⟩
      · rw [List.mem_singleton] at hr'
        subst hr'
        exact ⟨r', Or.inr rfl, hn⟩
    · rintro ⟨r, hr | rfl, rfl⟩
      · rw [hg r hr]; exact List.mem_append_left _ (List.mem_map_of_mem hr)
      · rw [hn]; simp) (by simp only [hpk]; exact hinj)
  simp only [hpk] at hF
  refine Shows.put (shows_PF h) hF hnew ?_ ?_ ?_ (injOn_pk h.toAI) (by rw [hn]) hs
  · intro r hr; rw [hg r hr, hgp]
  · intro a b ha hb hpar hab
    simp only [hg a ha, hg b hb]
    exact hmono a ha b hb hpar hab
  · intro a b _ _ hab; exact lt_asymm hab

/-! ### A row at a new place -/

theorem ainv_move (h : AInv cfg rows) {G : Row → Row} {x : Row} (hx : x ∈ rows) (hk : ∀ r ∈ rows, (G r).pk = r.pk)
    (hG : ∀ r ∈ rows, r ≠ x → (G r).parent = r.parent)
    (hp : ∀ p, (G x).parent = some p → (∃ q ∈ rows, q.pk = p) ∧ p ≠ x.pk ∧ ¬ (PF cfg rows).Desc x.pk p)
    (hgs : cfg.ordered = false → ∀ r ∈ rows, 1 ≤ (G r).sib)
    (hmono : ∀ a ∈ rows, ∀ b ∈ rows, a ≠ x → b ≠ x → a.parent = b.parent → lt cfg a b → lt cfg (G a) (G b))
    (hcomp : ∀ r ∈ rows, r ≠ x → r.parent = (G x).parent → lt cfg (G r) (G x) ∨ lt cfg (G x) (G r)) : AInv cfg (rows.map G) := by
  refine ⟨ai_move h.toAI hx hk hG hp, ?_, ?_⟩
  · intro ho r hr
    obtain ⟨r0, h0, rfl⟩ := List.mem_map.1 hr
    exact hgs ho r0 h0
  · intro a' ha' b' hb' hne hpar
    obtain ⟨a, ha, rfl⟩ := List.mem_map.1 ha'
    obtain ⟨b, hb, rfl⟩ := List.mem_map.1 hb'
    have hne' : a ≠ b := fun e => hne (by rw [e])
    by_cases hax : a = x
    · subst hax
      rw [hG b hb (Ne.symm hne')] at hpar
      exact (hcomp b hb (Ne.symm hne') hpar.symm).symm
    · by_cases hbx : b = x
      · subst hbx
        rw [hG a ha hax] at hpar
        exact hcomp a ha hax hpar
      · rw [hG a ha hax, hG b hb hbx] at hpar
        rcases h.comp a ha b hb hne' hpar with e | e
        · exact Or.inl (hmono a ha b hb hax hbx hpar e)
        · exact Or.inr (hmono b hb a ha hbx hax hpar.symm e)

theorem shows_moved (h : AI rows) {G : Row → Row} (hk : ∀ r ∈ rows, (G r).pk = r.pk) (h' : AInv cfg (rows.map G)) :
    Shows (PF cfg (rows.map G)) (· ∈ rows) Row.pk (fun r => (G r).parent) (fun a b => lt cfg (G a) (G b)) := by
  have hF := Shows.pullback (shows_PF h') (· ∈ rows) G (by
    intro r'
    rw [List.mem_map]) (by
      intro a b ha hb e
      exact h.pk_inj ha hb (by simpa only [hk a ha, hk b hb] using e))
  constructor
  intro p
  obtain ⟨l, e, hl, hm⟩ := hF.lists p
  refine ⟨l, e.trans ?_, hl, hm⟩
  exact List.map_congr_left (fun r hr => hk r ((hm r).1 hr).1)

theorem forest_move (h : AInv cfg rows) {G : Row → Row} {x : Row} (hx : x ∈ rows) (hk : ∀ r ∈ rows, (G r).pk = r.pk)
    (hG : ∀ r ∈ rows, r ≠ x → (G r).parent = r.parent)
    (hmono : ∀ a ∈ rows, ∀ b ∈ rows, a ≠ x → b ≠ x → a.parent = b.parent → lt cfg a b → lt cfg (G a) (G b))
    (h' : AInv cfg (rows.map G)) {s : Slot}
    (hs : SlotOK (fun r => r ∈ rows ∧ r ≠ x) Row.pk Row.parent (lt cfg) (fun a b => lt cfg (G a) (G b)) x (G x).parent s) :
    PF cfg (rows.map G) = (PF cfg rows).move x.pk (G x).parent s := by
  refine Shows.move (shows_PF h) (shows_moved h.toAI hk h') hx (injOn_pk h.toAI) hG ?_ ?_ rfl hs
  · intro a b ha hb hax hbx hpar hab
    exact hmono a ha b hb hax hbx hpar hab
  · intro a b _ _ hab; exact lt_asymm hab

/-- a change that keeps parents and order keeps the forest -/
theorem forest_same (h : AInv cfg rows) {G : Row → Row} (hk : ∀ r ∈ rows, (G r).pk = r.pk)
    (hG : ∀ r ∈ rows, (G r).parent = r.parent) (hmono : ∀ a ∈ rows, ∀ b ∈ rows, a.parent = b.parent → lt cfg a b → lt cfg (G a) (G b))
    (h' : AInv cfg (rows.map G)) : PF cfg (rows.map G) = PF cfg rows := by
  refine Shows.unique (shows_moved h.toAI hk h') ?_ (fun a b _ _ hab => lt_asymm hab)
  exact (shows_PF h).congr (fun _ => Iff.rfl) (fun r hr => (hG r hr).symm) (fun a b ha hb hpar hab => hmono a ha b hb hpar hab)

/-! ### Room for a position -/

/-- the siblings from `o` on make room -/
def shift (p : Option Nat) (o : Int) (r : Row) : Row := if r.parent = p ∧ o ≤ r.sib then { r with sib := r.sib + 1 } else r

theorem shift_pk (p : Option Nat) (o : Int) (r : Row) : (shift p o r).pk = r.pk := by unfold shift; split <;> rfl
theorem shift_parent (p : Option Nat) (o : Int) (r : Row) : (shift p o r).parent = r.parent := by unfold shift; split <;> rfl
theorem shift_vals (p : Option Nat) (o : Int) (r : Row) : (shift p o r).vals = r.vals := by unfold shift; split <;> rfl

theorem shift_sib (p : Option Nat) (o : Int) (r : Row) :
    (r.parent = p ∧ o ≤ r.sib ∧ (shift p o r).sib = r.sib + 1) ∨ (¬ (r.parent = p ∧ o ≤ r.sib) ∧ (shift p o r).sib = r.sib) := by
  unfold shift
  split
  · rename_i e; exact Or.inl ⟨e.1, e.2, rfl⟩
  · rename_i e; exact Or.inr ⟨e, rfl⟩

theorem shift_mono (ho : cfg.ordered = false) {p : Option Nat} {o : Int} {a b : Row} (hpar : a.parent = b.parent) (hab : lt cfg a b) :
    lt cfg (shift p o a) (shift p o b) := by
  rw [lt_plain ho] at *
  rcases shift_sib p o a with ⟨h1, h2, h3⟩ | ⟨h1, h3⟩ <;> rcases shift_sib p o b with ⟨g1, g2, g3⟩ | ⟨g1, g3⟩
  · omega
  · exact absurd ⟨hpar ▸ h1, by omega⟩ g1
  · omega
  · omega

/-- nobody is at `o` afterwards -/
theorem shift_ne {p : Option Nat} {o : Int} {a : Row} (hp : a.parent = p) : (shift p o a).sib ≠ o := by
  rcases shift_sib p o a with ⟨h1, h2, h3⟩ | ⟨h1, h3⟩
  · omega
  · intro e
    exact h1 ⟨hp, by omega⟩

/-- a position `o` among the rows `R` below `p` -/
def SibSlot (R : Row → Prop) (p : Option Nat) (o : Int) : Slot → Prop
  | .first => ∀ r, R r → r.parent = p → o ≤ r.sib
  | .last => ∀ r, R r → r.parent = p → r.sib < o
  | .before t => ∃ tr, R tr ∧ tr.pk = t ∧ tr.parent = p ∧ tr.sib = o
  | .after t => ∃ tr, R tr ∧ tr.pk = t ∧ tr.parent = p ∧ tr.sib + 1 = o

theorem slotOK_shift (ho : cfg.ordered = false) {R : Row → Prop} {G : Row → Row} {x : Row} {p : Option Nat} {o : Int} {s : Slot}
    (hG : ∀ r, R r → G r = shift p o r) (hx : (G x).sib = o) (hs : SibSlot R p o s) :
    SlotOK R Row.pk Row.parent (lt cfg) (fun a b => lt cfg (G a) (G b)) x p s := by
  have hlow : ∀ r, R r → r.sib < o → lt cfg (G r) (G x) := by
    intro r hr hlt
    rw [lt_plain ho, hG r hr, hx]
    rcases shift_sib p o r with ⟨_, h2, _⟩ | ⟨_, h3⟩ <;> omega
  have hhigh : ∀ r, R r → r.parent = p → o ≤ r.sib → lt cfg (G x) (G r) := by
    intro r hr hp hle
    rw [lt_plain ho, hG r hr, hx]
    rcases shift_sib p o r with ⟨_, _, h3⟩ | ⟨h1, _⟩
    · omega
    · exact absurd ⟨hp, hle⟩ h1
  cases s with
  | first => intro r hr hp; exact hhigh r hr hp (hs r hr hp)
  | last => intro r hr hp; exact hlow r hr (hs r hr hp)
  | before t =>
    obtain ⟨tr, h1, h2, h3, h4⟩ := hs
    refine ⟨tr, h1, h2, h3, hhigh tr h1 h3 (by omega), ?_, ?_⟩
    · intro r hr hp hlt
      rw [lt_plain ho] at hlt
      exact hlow r hr (by omega)
    · intro r hr hp hlt
      rw [lt_plain ho] at hlt
      exact hhigh r hr hp (by omega)
  | after t =>
    obtain ⟨tr, h1, h2, h3, h4⟩ := hs
    refine ⟨tr, h1, h2, h3, hlow tr h1 (by omega), ?_, ?_⟩
    · intro r hr hp hlt
      rw [lt_plain ho] at hlt
      exact hlow r hr (by omega)
    · intro r hr hp hlt
      rw [lt_plain ho] at hlt
      exact hhigh r hr hp (by omega)

theorem shift_ge (ho : cfg.ordered = false) (h : AInv cfg rows) {p : Option Nat} {o : Int} : ∀ r ∈ rows, 1 ≤ (shift p o r).sib := by
  intro r hr
  have := h.sib ho r hr
  rcases shift_sib p o r with ⟨_, _, h3⟩ | ⟨_, h3⟩ <;> omega

/-- a new row at position `o` -/
theorem add_at (ho : cfg.ordered = false) (h : AInv cfg rows) {new : Row} (hf : ∀ r ∈ rows, r.pk ≠ new.pk)
    (hp : ∀ p, new.parent = some p → ∃ q ∈ rows, q.pk = p) (ho1 : 1 ≤ new.sib) {s : Slot}
    (hs : SibSlot (· ∈ rows) new.parent new.sib s) :
    AInv cfg (rows.map (shift new.parent new.sib) ++ [new]) ∧
      PF cfg (rows.map (shift new.parent new.sib) ++ [new]) = (PF cfg rows).put new.parent s new.pk := by
  have h' : AInv cfg (rows.map (shift new.parent new.sib) ++ [new]) := by
    refine ainv_add h (shift_pk _ _) (shift_parent _ _) (fun _ => shift_ge ho h) (fun a _ b _ => shift_mono ho) hf hp (fun _ => ho1) ?_
    intro r hr hpar
    have := shift_ne (o := new.sib) hpar
    rw [lt_plain ho, lt_plain ho]
    omega
  refine ⟨h', forest_add h (shift_pk _ _) (shift_parent _ _) (fun a _ b _ => shift_mono ho) hf h' ?_⟩
  refine slotOK_shift ho ?_ (by simp [addMap]) hs
  intro r hr
  exact if_neg (hf r hr)

/-- the rows after the node `x` was moved to position `o` below `p` -/
def moveMap (x : Row) (p : Option Nat) (o : Int) (r : Row) : Row := if r.pk = x.pk then { x with parent := p, sib := o } else shift p o r

theorem moveMap_pk (x : Row) (p : Option Nat) (o : Int) (r : Row) : (moveMap x p o r).pk = r.pk := by
  unfold moveMap
  split
  · rename_i e; exact e.symm
  · exact shift_pk p o r

theorem moveMap_self (x : Row) (p : Option Nat) (o : Int) : moveMap x p o x = { x with parent := p, sib := o } := if_pos rfl

theorem moveMap_other (h : AI rows) {x r : Row} (hx : x ∈ rows) (hr : r ∈ rows) (hne : r ≠ x) (p : Option Nat) (o : Int) :
    moveMap x p o r = shift p o r := if_neg (fun e => hne (h.pk_inj hr hx e))

theorem ainv_moveMap (ho : cfg.ordered = false) (h : AInv cfg rows) {x : Row} (hx : x ∈ rows) {p : Option Nat} {o : Int}
    (hp : ∀ k, p = some k → (∃ q ∈ rows, q.pk = k) ∧ k ≠ x.pk ∧ ¬ (PF cfg rows).Desc x.pk k) (ho1 : 1 ≤ o) :
    AInv cfg (rows.map (moveMap x p o)) := by
  have hother : ∀ r ∈ rows, r ≠ x → moveMap x p o r = shift p o r := fun r hr hne => moveMap_other h.toAI hx hr hne p o
  refine ainv_move h hx (fun r _ => moveMap_pk x p o r) ?_ ?_ ?_ ?_ ?_
  · intro r hr hne; rw [hother r hr hne, shift_parent]
  · rw [moveMap_self]; exact hp
  · intro _ r hr
    by_cases hne : r = x
    · rw [hne, moveMap_self]; exact ho1
    · rw [hother r hr hne]; exact shift_ge ho h r hr
  · intro a ha b hb hax hbx hpar hab
    rw [hother a ha hax, hother b hb hbx]
    exact shift_mono ho hpar hab
  · intro r hr hne hpar
    rw [moveMap_self] at hpar ⊢
    rw [hother r hr hne]
    have := shift_ne (o := o) hpar
    rw [lt_plain ho, lt_plain ho]
    simp only at this ⊢
    omega

theorem move_at (ho : cfg.ordered = false) (h : AInv cfg rows) {x : Row} (hx : x ∈ rows) {p : Option Nat} {o : Int}
    (hp : ∀ k, p = some k → (∃ q ∈ rows, q.pk = k) ∧ k ≠ x.pk ∧ ¬ (PF cfg rows).Desc x.pk k) (ho1 : 1 ≤ o) {s : Slot}
    (hs : SibSlot (fun r => r ∈ rows ∧ r ≠ x) p o s) :
    PF cfg (rows.map (moveMap x p o)) = (PF cfg rows).move x.pk p s := by
  have hother : ∀ r ∈ rows, r ≠ x → moveMap x p o r = shift p o r := fun r hr hne => moveMap_other h.toAI hx hr hne p o
  have hpx : (moveMap x p o x).parent = p := by rw [moveMap_self]
  have := forest_move (G := moveMap x p o) (s := s) h hx (fun r _ => moveMap_pk x p o r) (fun r hr hne => by rw [hother r hr hne, shift_parent]) ?_
    (ainv_moveMap ho h hx hp ho1) ?_
  · rwa [hpx] at this
  · intro a ha b hb hax hbx hpar hab
    rw [hother a ha hax, hother b hb hbx]
    exact shift_mono ho hpar hab
  · rw [hpx]
    exact slotOK_shift ho (fun r hr => hother r hr.1 hr.2) (by rw [moveMap_self]) hs

/-- a node that moves one up, behind itself: nothing changes -/
theorem move_same (ho : cfg.ordered = false) (h : AInv cfg rows) {x : Row} (hx : x ∈ rows) :
    PF cfg (rows.map (moveMap x x.parent (x.sib + 1))) = PF cfg rows := by
  have hother : ∀ r ∈ rows, r ≠ x → moveMap x x.parent (x.sib + 1) r = shift x.parent (x.sib + 1) r :=
    fun r hr hne => moveMap_other h.toAI hx hr hne _ _
  have hp : ∀ k, x.parent = some k → (∃ q ∈ rows, q.pk = k) ∧ k ≠ x.pk ∧ ¬ (PF cfg rows).Desc x.pk k := by
    intro k e
    have hd : (PF cfg rows).Desc k x.pk := .child (mem_PF.2 ⟨x, hx, e, rfl⟩)
    refine ⟨h.exist x hx k e, ?_, ?_⟩
    · rintro rfl; exact desc_irrefl h.toAI _ hd
    · intro hd'; exact desc_irrefl h.toAI _ (hd.trans hd')
  have h' := ainv_moveMap (o := x.sib + 1) ho h hx hp (by have := h.sib ho x hx; omega)
  refine forest_same h (fun r _ => moveMap_pk _ _ _ r) ?_ ?_ h'
  · intro r hr
    by_cases hne : r = x
    · rw [hne, moveMap_self]
    · rw [hother r hr hne, shift_parent]
  · intro a ha b hb hpar hab
    rw [lt_plain ho] at hab
    by_cases hax : a = x
    · subst hax
      have hbx : b ≠ a := by rintro rfl; omega
      rw [hother b hb hbx, moveMap_self, lt_plain ho]
      rcases shift_sib a.parent (a.sib + 1) b with ⟨_, _, h3⟩ | ⟨h1, _⟩
      · simp only; omega
      · exact absurd ⟨hpar.symm, by omega⟩ h1
    · by_cases hbx : b = x
      · subst hbx
        rw [hother a ha hax, moveMap_self, lt_plain ho]
        rcases shift_sib b.parent (b.sib + 1) a with ⟨_, _, h3⟩ | ⟨h1, h3⟩
        · simp only; omega
        · simp only; omega
      · rw [hother a ha hax, hother b hb hbx]
        exact shift_mono ho hpar ((lt_plain ho).2 hab)

/-- a node that moves to the place it has: nothing changes -/
theorem move_left_same (ho : cfg.ordered = false) (h : AInv cfg rows) {x : Row} (hx : x ∈ rows) :
    PF cfg (rows.map (moveMap x x.parent x.sib)) = PF cfg rows := by
  have hother : ∀ r ∈ rows, r ≠ x → moveMap x x.parent x.sib r = shift x.parent x.sib r :=
    fun r hr hne => moveMap_other h.toAI hx hr hne _ _
  have hp : ∀ k, x.parent = some k → (∃ q ∈ rows, q.pk = k) ∧ k ≠ x.pk ∧ ¬ (PF cfg rows).Desc x.pk k := by
    intro k e
    have hd : (PF cfg rows).Desc k x.pk := .child (mem_PF.2 ⟨x, hx, e, rfl⟩)
    refine ⟨h.exist x hx k e, ?_, ?_⟩
    · rintro rfl; exact desc_irrefl h.toAI _ hd
    · intro hd'; exact desc_irrefl h.toAI _ (hd.trans hd')
  have h' := ainv_moveMap (o := x.sib) ho h hx hp (h.sib ho x hx)
  refine forest_same h (fun r _ => moveMap_pk _ _ _ r) ?_ ?_ h'
  · intro r hr
    by_cases hne : r = x
    · rw [hne, moveMap_self]
    · rw [hother r hr hne, shift_parent]
  · intro a ha b hb hpar hab
    rw [lt_plain ho] at hab
    by_cases hax : a = x
    · subst hax
      have hbx : b ≠ a := by rintro rfl; omega
      rw [hother b hb hbx, moveMap_self, lt_plain ho]
      rcases shift_sib a.parent a.sib b with ⟨_, _, h3⟩ | ⟨h1, _⟩
      · simp only; omega
      · exact absurd ⟨hpar.symm, by omega⟩ h1
    · by_cases hbx : b = x
      · subst hbx
        rw [hother a ha hax, moveMap_self, lt_plain ho]
        rcases shift_sib b.parent b.sib a with ⟨_, _, h3⟩ | ⟨h1, h3⟩
        · simp only; omega
        · simp only; omega
      · rw [hother a ha hax, hother b hb hbx]
        exact shift_mono ho hpar ((lt_plain ho).2 hab)

end Verif.AL
