/-
NS: making room at a place, then adding a row or moving a branch there.
-/
import Verif.NS.Jump

namespace Verif.NS

set_option linter.unusedSectionVars false

variable {rows : List Row}

/-- the row stands at or after the place -/
def aftP (T l : Int) (r : Row) : Prop := T < r.tree ∨ (r.tree = T ∧ l ≤ r.lft)

/-- the place before `T`, `l` among the rows of `R` with parent `p` is the slot -/
def PSlot (rows : List Row) (R : Row → Prop) (p : Option Nat) (T l : Int) : Slot → Prop
  | .first => ∀ r ∈ rows, R r → par rows r = p → aftP T l r
  | .last => ∀ r ∈ rows, R r → par rows r = p → befH T l r
  | .before t => ∃ tr ∈ rows, R tr ∧ tr.pk = t ∧ par rows tr = p ∧ aftP T l tr ∧
      ∀ r ∈ rows, R r → par rows r = p → lt r tr → befH T l r
  | .after t => ∃ tr ∈ rows, R tr ∧ tr.pk = t ∧ par rows tr = p ∧ befH T l tr ∧
      ∀ r ∈ rows, R r → par rows r = p → lt tr r → aftP T l r

/-- `f` opens a hole of `g` numbers at `T`, `l`, just inside `p`. -/
structure Opened (rows : List Row) (f : Row → Row) (T l g : Int) (p : Option Row) : Prop where
  renum : ∃ τ φ, Renum rows f τ φ
  hole : ∀ B : Row → Prop, (∀ q, p = some q → ¬ B (f q)) → Hole (rows.map f) B T l g (p.map f)
  bef : ∀ r ∈ rows, befH T l r → befH T l (f r)
  aft : ∀ r ∈ rows, aftP T l r → aftH T l (f r)
  full : Full rows (fun _ _ => False) → Full (rows.map f) (fun t i => t = T ∧ l ≤ i ∧ i < l + g)
  mem : ∀ q, p = some q → q ∈ rows

theorem hole_mono {B B' : Row → Prop} {T l g : Int} {p : Option Row} (h : Hole rows B T l g p) (hB : ∀ r, B r → B' r)
    (hp : ∀ q, p = some q → ¬ B' q) : Hole rows B' T l g p :=
  ⟨h.free, h.tree, h.none, fun q hq => by
    obtain ⟨h1, h2, h3, h4, h5, h6⟩ := h.some q hq
    exact ⟨h1, hp q hq, h3, h4, h5, fun q' hq' hn => h6 q' hq' (fun hb => hn (hB _ hb))⟩⟩

/-- opening a gap just inside `q` -/
theorem opened_gap (h : NI rows) {q : Row} (hq : q ∈ rows) {l g : Int} (hg : 0 < g) (h1 : q.lft < l) (h2 : l ≤ q.rgt)
    (hin : ∀ q' ∈ rows, q'.tree = q.tree → q'.lft < l → l ≤ q'.rgt → q' = q ∨ encl q' q) :
    Opened rows (gapRow q.tree l g) q.tree l g (some q) := by
  have h0 := h.one q hq
  have hr := gap_open h (T := q.tree) (start := l) (offset := g) (by omega) (by omega)
  have eL : ∀ r ∈ rows, (gapRow q.tree l g r).lft = if r.tree = q.tree ∧ l ≤ r.lft then r.lft + g else r.lft :=
    fun r hr => gapRow_lft (h.lr r hr)
  have eR : ∀ r ∈ rows, (gapRow q.tree l g r).rgt = if r.tree = q.tree ∧ l ≤ r.rgt then r.rgt + g else r.rgt :=
    fun r hr => gapRow_rgt
  have eT : ∀ r ∈ rows, (gapRow q.tree l g r).tree = r.tree := fun r hr' => hr.tree r hr'
  refine ⟨⟨_, _, hr⟩, ?_, ?_, ?_, ?_, ?_⟩
  · intro B hB
    refine ⟨?_, ?_, ?_, ?_⟩
    · rintro e ⟨r', hr', ht, hor⟩
      obtain ⟨r, hr, rfl⟩ := List.mem_map.1 hr'
      rw [eT r hr] at ht
      rw [eL r hr, eR r hr] at hor
      rcases hor with hor | hor
      · split at hor <;> omega
      · split at hor <;> omega
    · have := h.tree q hq; omega
    · intro e; cases e
    · intro q' e
      cases e
      refine ⟨List.mem_map_of_mem hq, hB q rfl, eT q hq, ?_, ?_, ?_⟩
      · rw [eL q hq, if_neg (by omega)]; exact h1
      · rw [eR q hq, if_pos ⟨rfl, h2⟩]; omega
      · intro a' ha' _ ht h3 h4
        obtain ⟨a, ha, rfl⟩ := List.mem_map.1 ha'
        rw [eT a ha] at ht
        rw [eL a ha] at h3
        rw [eR a ha] at h4
        rcases hin a ha ht (by split at h3 <;> omega) (by split at h4 <;> omega) with rfl | e
        · exact Or.inl rfl
        · exact Or.inr ((hr.encl ha hq).2 e)
  · intro r hr hb
    unfold befH at hb ⊢
    rw [eT r hr, eL r hr]
    split <;> omega
  · intro r hr hb
    unfold aftP at hb
    unfold aftH
    rw [eT r hr, eL r hr]
    split <;> omega
  · intro hf; exact full_open h hf (by omega)
  · intro q' e; cases e; exact hq

/-- opening a tree number -/
theorem opened_right (h : NI rows) {T : Int} (hT : 1 ≤ T) (g : Int) : Opened rows (treeRightRow T) T 1 g none := by
  have hr := treeRight_renum h T
  have hfree := treeRight_free (rows := rows) T
  refine ⟨⟨_, _, hr⟩, ?_, ?_, ?_, ?_, ?_⟩
  · intro B _
    refine ⟨?_, hT, fun _ => ⟨rfl, hfree⟩, fun q e => by cases e⟩
    rintro e ⟨r, hr, ht, _⟩
    exact absurd ht (hfree r hr)
  · intro r hr hb
    have := h.one r hr
    unfold befH at hb ⊢
    unfold treeRightRow
    rw [if_neg (by omega)]; exact hb
  · intro r hr hb
    unfold aftP at hb
    unfold aftH treeRightRow
    rw [if_pos (by omega)]
    left; simp only; omega
  · intro hf r' hr' i h1 h2
    left
    obtain ⟨r, hr0, rfl⟩ := List.mem_map.1 hr'
    rw [hr.lft r hr0] at h1
    rw [hr.rgt r hr0] at h2
    obtain ⟨q, hq, h3, h4⟩ := (hf r hr0 i h1 h2).resolve_right id
    exact ⟨treeRightRow T q, List.mem_map_of_mem hq, (hr.tree_eq hq hr0).2 h3, by rw [hr.lft q hq, hr.rgt q hq]; exact h4⟩
  · intro q e; cases e

/-- the next tree number is free -/
theorem opened_last (h : NI rows) {T : Int} (hT : 1 ≤ T) (hmax : ∀ r ∈ rows, r.tree < T) (g : Int) : Opened rows id T 1 g none := by
  have hr : Renum rows id id (fun _ e => e) := ⟨⟨fun _ _ => rfl, fun _ _ => rfl, fun _ _ => rfl, fun _ _ => rfl, fun _ _ => rfl,
    fun _ _ _ _ h => h, fun _ _ _ _ _ h => h, fun r hr => h.tree r hr, fun _ _ => rfl, fun r hr => h.one r hr⟩, fun _ _ => rfl⟩
  refine ⟨⟨_, _, hr⟩, ?_, fun _ _ h => h, ?_, ?_, ?_⟩
  · intro B _
    rw [List.map_id]
    refine ⟨?_, hT, fun _ => ⟨rfl, fun r hr => by have := hmax r hr; omega⟩, fun q e => by cases e⟩
    rintro e ⟨r, hr, ht, _⟩
    have := hmax r hr
    omega
  · intro r hr hb
    have := hmax r hr
    unfold aftP at hb
    omega
  · intro hf; rw [List.map_id]; exact hf.mono (fun _ _ h => h.elim)
  · intro q e; cases e

variable {f : Row → Row} {T l g : Int} {p : Option Row}

theorem Opened.ni (ho : Opened rows f T l g p) (h : NI rows) : NI (rows.map f) := by
  obtain ⟨τ, φ, hr⟩ := ho.renum; exact hr.ni h

theorem Opened.pk (ho : Opened rows f T l g p) {r : Row} (hr : r ∈ rows) : (f r).pk = r.pk := by
  obtain ⟨τ, φ, hf⟩ := ho.renum; exact hf.pk r hr

theorem Opened.depth (ho : Opened rows f T l g p) {r : Row} (hr : r ∈ rows) : (f r).depth = r.depth := by
  obtain ⟨τ, φ, hf⟩ := ho.renum; exact hf.depth r hr

theorem Opened.pmap (ho : Opened rows f T l g p) : (p.map f).map Row.pk = p.map Row.pk := by
  cases p with
  | none => rfl
  | some q => simp [ho.pk (ho.mem q rfl)]

theorem Opened.slot (ho : Opened rows f T l g p) (h : NI rows) {R : Row → Prop} {R' : Row → Prop} (hR : ∀ r ∈ rows, R r ↔ R' (f r))
    {s : Slot} {P : Option Nat} (hs : PSlot rows R P T l s) : SlotAt (rows.map f) R' P T l s := by
  obtain ⟨τ, φ, hf⟩ := ho.renum
  cases s with
  | first =>
    intro r' hr' hRr hp
    obtain ⟨r, hr, rfl⟩ := List.mem_map.1 hr'
    rw [hf.par h hr] at hp
    exact ho.aft r hr (hs r hr ((hR r hr).2 hRr) hp)
  | last =>
    intro r' hr' hRr hp
    obtain ⟨r, hr, rfl⟩ := List.mem_map.1 hr'
    rw [hf.par h hr] at hp
    exact ho.bef r hr (hs r hr ((hR r hr).2 hRr) hp)
  | before t =>
    obtain ⟨tr, h1, h2, h3, h4, h5, h6⟩ := hs
    refine ⟨f tr, List.mem_map_of_mem h1, (hR tr h1).1 h2, by rw [hf.pk tr h1]; exact h3, by rw [hf.par h h1]; exact h4,
      ho.aft tr h1 h5, ?_⟩
    intro r' hr' hRr hp hlt
    obtain ⟨r, hr, rfl⟩ := List.mem_map.1 hr'
    rw [hf.par h hr] at hp
    exact ho.bef r hr (h6 r hr ((hR r hr).2 hRr) hp ((hf.lt hr h1).1 hlt))
  | after t =>
    obtain ⟨tr, h1, h2, h3, h4, h5, h6⟩ := hs
    refine ⟨f tr, List.mem_map_of_mem h1, (hR tr h1).1 h2, by rw [hf.pk tr h1]; exact h3, by rw [hf.par h h1]; exact h4,
      ho.bef tr h1 h5, ?_⟩
    intro r' hr' hRr hp hlt
    obtain ⟨r, hr, rfl⟩ := List.mem_map.1 hr'
    rw [hf.par h hr] at hp
    exact ho.aft r hr (h6 r hr ((hR r hr).2 hRr) hp ((hf.lt h1 hr).1 hlt))

theorem Opened.depthIn (ho : Opened rows f T l g p) : depthIn (p.map f) = depthIn p := by
  cases p with
  | none => rfl
  | some q => simp [NS.depthIn, ho.depth (ho.mem q rfl)]

/-- **Adding a row at an opened place.** -/
theorem add_opened (h : NInv rows) (ho : Opened rows f T l 2 p) {x : Row} (hk : ∀ r ∈ rows, r.pk ≠ x.pk)
    (hxT : x.tree = T) (hxl : x.lft = l) (hxr : x.rgt = l + 1) (hxd : x.depth = depthIn p) {s : Slot}
    (hs : PSlot rows (fun _ => True) (p.map Row.pk) T l s) :
    NInv (rows.map f ++ [x]) ∧ PF (rows.map f ++ [x]) = (PF rows).put (p.map Row.pk) s x.pk ∧
      data (rows.map f ++ [x]) = data rows ++ [(x.pk, x.vals)] := by
  obtain ⟨τ, φ, hf⟩ := ho.renum
  have hni := ho.ni h.toNI
  have hh := ho.hole (fun _ => False) (fun _ _ h => h)
  have hk' : ∀ r ∈ rows.map f, r.pk ≠ x.pk := by
    intro r' hr'
    obtain ⟨r, hr, rfl⟩ := List.mem_map.1 hr'
    rw [ho.pk hr]; exact hk r hr
  have hxd' : x.depth = depthIn (p.map f) := by rw [ho.depthIn]; exact hxd
  refine ⟨?_, ?_, ?_⟩
  · exact NInv.of_full (ins_ni hni hh hk' hxT hxl hxr hxd') (full_insert hxT hxl hxr (ho.full h.Full)) (fun _ _ _ h => h)
  · rw [ins_forest hni hh hk' hxT hxl hxr hxd' (s := s) (by rw [ho.pmap]; exact ho.slot h.toNI (fun _ _ => Iff.rfl) hs), ho.pmap,
      hf.forest h.toNI]
  · simp only [data, List.map_append]
    have := hf.data
    unfold data at this
    rw [this]
    rfl

/-- the table after opening, jumping and closing -/
def relocate (rows : List Row) (f : Row → Row) (x : Row) (T l : Int) (p : Option Row) : List Row :=
  ((rows.map f).map (jrow (f x) T l (p.map f))).map (gapRow (f x).tree (f x).lft (-((f x).rgt - (f x).lft + 1)))

theorem Opened.inB (ho : Opened rows f T l g p) {x r : Row} (h : NI rows) (hx : x ∈ rows) (hr : r ∈ rows) : InB (f x) (f r) ↔ InB x r := by
  obtain ⟨τ, φ, hf⟩ := ho.renum
  unfold InB
  rw [hf.encl hx hr]
  constructor
  · rintro (e | e)
    · left
      exact h.pk_inj hr hx (by rw [← hf.pk r hr, ← hf.pk x hx, e])
    · exact Or.inr e
  · rintro (rfl | e)
    · exact Or.inl rfl
    · exact Or.inr e

/-- **Moving a branch to an opened place and closing the gap it leaves.** -/
theorem move_opened (h : NInv rows) {x : Row} (hx : x ∈ rows) (hg : (f x).rgt - (f x).lft + 1 = g) (ho : Opened rows f T l g p)
    (hp : ∀ q, p = some q → ¬ InB x q) {s : Slot}
    (hs : PSlot rows (· ≠ x) (p.map Row.pk) T l s) :
    NInv (relocate rows f x T l p) ∧ PF (relocate rows f x T l p) = (PF rows).move x.pk (p.map Row.pk) s ∧
      data (relocate rows f x T l p) = data rows := by
  obtain ⟨τ, φ, hf⟩ := ho.renum
  have hni := ho.ni h.toNI
  have hx' : f x ∈ rows.map f := List.mem_map_of_mem hx
  subst hg
  have hh := ho.hole (InB (f x)) (fun q hq => by rw [ho.inB h.toNI hx (ho.mem q hq)]; exact hp q hq)
  have hh0 := ho.hole (fun _ => False) (fun _ _ h => h)
  have hlx := hni.lr _ hx'
  -- the place is not inside the branch
  have hout : (f x).tree = T → (f x).rgt < l ∨ l + ((f x).rgt - (f x).lft + 1) ≤ (f x).lft := by
    intro ht
    have f1 := hh.free _ (ht ▸ EndP.lft hx')
    have f2 := hh.free _ (ht ▸ EndP.rgt hx')
    by_contra hc
    cases p with
    | none => exact (hh.none rfl).2 _ hx' ht
    | some q =>
      have := (hh0.some (f q) rfl).2.2.2.2.2 (f x) hx' id ht (by omega) (by omega)
      exact (hh.some (f q) rfl).2.1 (by
        rcases this with e | e
        · exact Or.inl e.symm
        · exact Or.inr e)
  have hj := jump_ni hni hx' hh
  have hfj := full_jump (p := p.map f) hni hx' hout (ho.full h.Full)
  have hjf := jump_forest hni hx' hh (s := s) (by
    rw [ho.pmap]
    refine ho.slot h.toNI (R := (· ≠ x)) ?_ hs
    intro r hr
    constructor
    · intro hne e; exact hne (h.pk_inj hr hx (by rw [← hf.pk r hr, ← hf.pk x hx, e]))
    · rintro hne rfl; exact hne rfl)
  have hjd := jump_data (rows := rows.map f) (x := f x) (T := T) (l := l) (p := p.map f)
  rw [ho.pmap, hf.pk x hx, hf.forest h.toNI] at hjf
  rw [hf.data] at hjd
  -- what is left in the old place
  have hleft : ∀ e, EndP ((rows.map f).map (jrow (f x) T l (p.map f))) (f x).tree e → (f x).lft ≤ e → (f x).rgt < e := by
    rintro e ⟨r', hr', ht, hor⟩ hle
    obtain ⟨r, hr, rfl⟩ := List.mem_map.1 hr'
    by_contra hc
    by_cases hB : InB (f x) r
    · have hb := jrow_bounds (T := T) (l := l) (p := p.map f) hni hx' hr hB
      have := hout (by rw [← ht, hb.1])
      omega
    · rw [jrow_out hni hx' hr hB] at ht hor
      exact hB (hni.inB_of_end hx' hr ht hor hle (by omega))
  unfold relocate
  by_cases h1 : (f x).lft = 1
  · -- a root: nothing is left in its tree
    have hempty : ∀ r ∈ (rows.map f).map (jrow (f x) T l (p.map f)), r.tree ≠ (f x).tree := by
      intro r' hr' ht
      obtain ⟨r, hr, rfl⟩ := List.mem_map.1 hr'
      have hall : ∀ q ∈ rows.map f, q.tree = (f x).tree → InB (f x) q := by
        intro q hq htq
        by_cases e : q = f x
        · exact Or.inl e
        · right
          have := hni.one q hq
          have hd := hni.dist q hq (f x) hx' e htq
          by_cases hq1 : q.lft = 1
          · exact absurd (hq1.trans h1.symm) hd.1
          · obtain ⟨c, hc, hc1, hce⟩ := hni.root q hq hq1
            have : c = f x := by
              by_contra hne
              exact (hni.dist c hc (f x) hx' hne (hce.1.trans htq)).1 (hc1.trans h1.symm)
            rw [← this]; exact hce
      by_cases hB : InB (f x) r
      · rw [(jrow_bounds hni hx' hr hB).1] at ht
        cases p with
        | none => exact (hh.none rfl).2 _ hx' ht.symm
        | some q =>
          obtain ⟨g1, g2, g3, _⟩ := hh.some (f q) rfl
          exact g2 (hall _ g1 (g3.trans ht))
      · rw [jrow_out hni hx' hr hB] at ht
        exact hB (hall r hr ht)
    rw [gap_none hempty]
    exact ⟨NInv.of_full hj hfj (fun r hr i hH => hempty r hr hH.1), hjf, hjd⟩
  · have h1' : 1 < (f x).lft := by have := hni.one _ hx'; omega
    have hcl := gap_close hj (T := (f x).tree) h1' hleft
    refine ⟨NInv.of_full (hcl.ni hj) (full_close hj hfj (by omega) hleft (fun i hH => hH.2.2)) ?_, by rw [hcl.forest hj]; exact hjf,
      by rw [hcl.data]; exact hjd⟩
    intro r _ i hH
    have := hH.2
    omega

end Verif.NS
