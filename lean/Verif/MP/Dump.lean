/-
MP: `dump_bulk` shows the forest.
-/
import Verif.MP.LoadForest
import Verif.MP.Delete

namespace Verif.MP

variable {cfg : Cfg} {db : DB}

/-- the rows of the first level of the dump -/
def DumpTop (cfg : Cfg) (parent : Option Row) (r : Row) : Prop :=
  match parent with
  | none => r.path.length = cfg.steplen
  | some p => r.path = p.path

instance (cfg : Cfg) (parent : Option Row) (r : Row) : Decidable (DumpTop cfg parent r) := by
  unfold DumpTop; cases parent <;> infer_instance

theorem dumpPlace_eq (hok : cfg.Ok) (hi : PInv cfg db.rows) {parent : Option Row} {r : Row} (hr : r ∈ db.rows)
    (hp : ∀ p, parent = some p → p ∈ db.rows ∧ p.path <+: r.path) :
    dumpPlace cfg parent r = if DumpTop cfg parent r then Except.ok none
      else .ok (some (pp cfg.steplen r.path)) := by
  have hs := hok.step
  have hd := hi.depth r hr
  have hd1 := hi.depth_pos hok hr
  have hdiv : r.path.length / cfg.steplen = r.depth := by rw [hd, Nat.mul_div_cancel _ hs]
  have hb : basepath cfg r.path ((r.path.length / cfg.steplen : Nat) - 1 : Int) = pp cfg.steplen r.path := by
    rw [hdiv]; exact basepath_parent hd1 hd
  unfold dumpPlace
  simp only [hb]
  cases parent with
  | none =>
    simp only [hdiv, beq_iff_eq]
    have : r.depth = 1 ↔ r.path.length = cfg.steplen := by rw [depth_eq_iff hi hok hr]; omega
    simp only [this, DumpTop]
  | some p =>
    obtain ⟨_, hpre⟩ := hp p rfl
    have : r.path.length = p.path.length ↔ r.path = p.path := by
      constructor
      · intro e; exact (hpre.eq_of_length e.symm).symm
      · intro e; rw [e]
    simp only [beq_iff_eq, this, DumpTop]

theorem mem_dumpRows {parent : Option Row} {r : Row} : r ∈ dumpRows db parent ↔ r ∈ db.rows ∧ ∀ p, parent = some p → p.path <+: r.path := by
  unfold dumpRows orderByDepthPath
  rw [mem_sortBy]
  cases parent with
  | none => simp
  | some p => simp [List.mem_filter]

theorem dumpRows_sorted (hi : PInv cfg db.rows) (parent : Option Row) :
    (dumpRows db parent).Pairwise (fun a b => a.depth < b.depth ∨ (a.depth = b.depth ∧ a.path < b.path)) := by
  have hnd : (match parent with | none => db.rows | some p => db.rows.filter (fun r => p.path.isPrefixOf r.path)).Nodup := by
    cases parent with
    | none => exact (List.Nodup.of_map _ hi.inv.pkNodup)
    | some p => exact (List.Nodup.of_map _ hi.inv.pkNodup).filter _
  have hsub : ∀ r ∈ (match parent with | none => db.rows | some p => db.rows.filter (fun r => p.path.isPrefixOf r.path)), r ∈ db.rows := by
    cases parent with
    | none => exact fun r h => h
    | some p => exact fun r h => (List.mem_filter.1 h).1
  unfold dumpRows orderByDepthPath
  refine (sortBy_strict strictWeak_depthPath hnd ?_).imp (by simp)
  intro a ha b hb hne
  simp only [decide_eq_true_eq]
  rcases Nat.lt_trichotomy a.depth b.depth with h | h | h
  · exact Or.inl (Or.inl h)
  · rcases plt_trichotomy a.path b.path with h1 | h1 | h1
    · exact Or.inl (Or.inr ⟨h, h1⟩)
    · exact absurd (hi.inv.path_inj (hsub a ha) (hsub b hb) h1) hne
    · exact Or.inr (Or.inr ⟨h.symm, h1⟩)
  · exact Or.inr (Or.inl h)

/-- the rows of the dump that are children of `P`, in the order of the dump -/
theorem dumpRows_kids (hok : cfg.Ok) (hi : PInv cfg db.rows) {parent : Option Row} {P : List Nat} (hP : IsPar db.rows P)
    {sel : Row → Bool} (hsel : ∀ r, r ∈ db.rows → (∀ p, parent = some p → p.path <+: r.path) → (sel r = true ↔ pp cfg.steplen r.path = P))
    (hall : ∀ r ∈ db.rows, pp cfg.steplen r.path = P → ∀ p, parent = some p → p.path <+: r.path) :
    ((dumpRows db parent).filter sel).map Row.pk = PF cfg db.rows (at? db.rows P) := by
  obtain ⟨l, e, s, m⟩ := sibs_list hi hok hP
  rw [e]
  congr 1
  refine sorted_unique (T := fun _ => True) (lt := fun a b : Row => a.path < b.path) (fun a b _ _ h => plt_asymm h) (fun _ _ => trivial) ?_ s ?_
  · refine List.Pairwise.imp_of_mem ?_ ((dumpRows_sorted hi parent).filter sel)
    intro a b ha hb h
    rw [List.mem_filter, mem_dumpRows] at ha hb
    rcases h with h | h
    · have e1 := (hsel a ha.1.1 ha.1.2).1 ha.2
      have e2 := (hsel b hb.1.1 hb.1.2).1 hb.2
      have l1 := congrArg List.length e1
      have l2 := congrArg List.length e2
      rw [pp_length] at l1 l2
      have d1 := hi.depth a ha.1.1
      have d2 := hi.depth b hb.1.1
      have n1 := (hi.inv.len a ha.1.1).2
      have n2 := (hi.inv.len b hb.1.1).2
      have : a.path.length = b.path.length := by omega
      rw [d1, d2] at this
      have := Nat.eq_of_mul_eq_mul_right hok.step this
      omega
    · exact h.2
  · intro r
    rw [List.mem_filter, mem_dumpRows, m]
    constructor
    · rintro ⟨⟨h1, h2⟩, h3⟩; exact ⟨h1, (hsel r h1 h2).1 h3⟩
    · rintro ⟨h1, h2⟩
      exact ⟨⟨h1, hall r h1 h2⟩, (hsel r h1 (hall r h1 h2)).2 h2⟩

/-- `dump_bulk` shows the forest, or the branch of a node. -/
theorem dump_shows (hok : cfg.Ok) (hi : PInv cfg db.rows) {parent : Option Row} (hp : ∀ p, parent = some p → p ∈ db.rows) (keep : Bool) :
    ∃ d, dumpBulk cfg db parent keep = .ok d ∧
      Dumps (PF cfg db.rows) (valsOf db) keep ((PF cfg db.rows).dumpTops (parent.map Row.pk)) d := by
  have hs := hok.step
  have hplace : ∀ r ∈ dumpRows db parent, dumpPlace cfg parent r =
      if DumpTop cfg parent r then Except.ok none
      else .ok (some (pp cfg.steplen r.path)) := by
    intro r hr
    rw [mem_dumpRows] at hr
    exact dumpPlace_eq hok hi hr.1 (fun p e => ⟨hp p e, hr.2 p e⟩)
  -- a row that is not at the top has its parent among the rows
  have hpar : ∀ r ∈ dumpRows db parent, ¬ DumpTop cfg parent r →
      ∃ q ∈ dumpRows db parent, q.path = pp cfg.steplen r.path := by
    intro r hr hn
    rw [mem_dumpRows] at hr
    have hlt : cfg.steplen < r.path.length := by
      have := (hi.inv.len r hr.1).2
      cases parent with
      | none => simp only [DumpTop] at hn; omega
      | some p =>
        simp only [DumpTop] at hn
        have h1 := hr.2 p rfl
        have h2 := (hi.inv.len p (hp p rfl)).2
        have h3 : p.path.length < r.path.length := by
          rcases Nat.lt_or_ge p.path.length r.path.length with h | h
          · exact h
          · exact absurd (h1.eq_of_length (Nat.le_antisymm h1.length_le h)).symm hn
        omega
    obtain ⟨q, hq, e⟩ := hi.inv.closed r hr.1 hlt
    refine ⟨q, mem_dumpRows.2 ⟨hq, fun p ep => ?_⟩, e⟩
    subst ep
    simp only [DumpTop] at hn
    have h1 := hr.2 p rfl
    rw [e]
    refine List.prefix_of_prefix_length_le h1 (pp_prefix _) ?_
    rw [pp_length]
    -- p.path is a proper prefix, lengths are multiples of steplen
    have h3 : p.path.length < r.path.length := by
      rcases Nat.lt_or_ge p.path.length r.path.length with h | h
      · exact h
      · exact absurd (h1.eq_of_length (Nat.le_antisymm h1.length_le h)).symm hn
    obtain ⟨a, ha⟩ := (hi.inv.len p (hp p rfl)).1
    obtain ⟨b, hb⟩ := (hi.inv.len r hr.1).1
    rw [ha, hb] at h3 ⊢
    have : a < b := Nat.lt_of_mul_lt_mul_left h3
    have h4 : cfg.steplen * (a + 1) ≤ cfg.steplen * b := Nat.mul_le_mul_left _ this
    rw [Nat.mul_add, Nat.mul_one] at h4
    omega
  have hsorted := dumpRows_sorted hi parent
  have hrows : ∀ r ∈ dumpRows db parent, r ∈ db.rows := fun r hr => (mem_dumpRows.1 hr).1
  obtain ⟨ret, e, hd⟩ := dumps_of_lists (key := Row.path) (place := dumpPlace cfg parent) (pk := Row.pk) (F := PF cfg db.rows)
    (cs := (PF cfg db.rows).dumpTops (parent.map Row.pk)) (rs := dumpRows db parent)
    (vals := Row.vals) (v := valsOf db)
    (fun a ha b hb e => hi.inv.path_inj (hrows a ha) (hrows b hb) e)
    (pairwise_nodup hsorted (fun r _ h => by rcases h with h | h; exact Nat.lt_irrefl _ h; exact plt_irrefl _ h.2))
    (by
      intro pre r post e
      have hr : r ∈ dumpRows db parent := by rw [e]; simp
      rw [hplace r hr]
      by_cases hc : DumpTop cfg parent r
      · left; rw [if_pos hc]
      · right
        obtain ⟨q, hq, eq⟩ := hpar r hr hc
        refine ⟨q, ?_, by rw [if_neg hc, eq]⟩
        have hlt : q.depth < r.depth := by
          have d1 := hi.depth q (hrows q hq)
          have d2 := hi.depth r (hrows r hr)
          have n2 := (hi.inv.len r (hrows r hr)).2
          rw [eq, pp_length] at d1
          by_contra hc
          have := Nat.mul_le_mul_right cfg.steplen (Nat.le_of_not_lt hc)
          omega
        rw [e] at hq hsorted
        simp only [List.mem_append, List.mem_cons] at hq
        rcases hq with h | rfl | h
        · exact h
        · omega
        · rw [List.pairwise_append, List.pairwise_cons] at hsorted
          rcases hsorted.2.1.1 q h with h' | h' <;> omega)
    (by
      intro a ha
      rw [← at?_row hi (hrows a ha)]
      refine dumpRows_kids hok hi (Or.inr ⟨a, hrows a ha, rfl⟩) ?_ ?_
      · intro r hr hpre
        have hrd := mem_dumpRows.2 ⟨hr, hpre⟩
        unfold placedBelow
        rw [hplace r hrd]
        by_cases hc : DumpTop cfg parent r
        · rw [if_pos hc]
          simp only [Bool.false_eq_true, false_iff]
          intro e
          have l1 := congrArg List.length e
          rw [pp_length] at l1
          have n1 := (hi.inv.len a (hrows a ha)).2
          cases parent with
          | none => simp only [DumpTop] at hc; omega
          | some p =>
            simp only [DumpTop] at hc
            have h2 := ((mem_dumpRows.1 ha).2 p rfl).length_le
            rw [hc] at l1
            omega
        · rw [if_neg hc]
          show (a.path == pp cfg.steplen r.path) = true ↔ _
          rw [beq_iff_eq]
          exact eq_comm
      · intro r hr e p ep
        have h1 := (mem_dumpRows.1 ha).2 p ep
        exact h1.trans (e ▸ pp_prefix r.path))
    (by
      cases parent with
      | none =>
        simp only [Option.map_none, Forest.dumpTops]
        conv_rhs => rw [← at?_nil hi hok]
        refine dumpRows_kids hok hi (Or.inl rfl) ?_ (by simp)
        intro r hr hpre
        have hrd := mem_dumpRows.2 ⟨hr, hpre⟩
        unfold placedTop
        rw [hplace r hrd]
        have h1 := (hi.inv.len r hr).2
        have : pp cfg.steplen r.path = [] ↔ r.path.length = cfg.steplen := by
          rw [← List.length_eq_zero_iff, pp_length]; omega
        rw [this]
        by_cases hc : r.path.length = cfg.steplen <;> simp [hc, DumpTop]
      | some p =>
        have hpm := hp p rfl
        have hpd : p ∈ dumpRows db (some p) := mem_dumpRows.2 ⟨hpm, by rintro q ⟨⟩; exact List.prefix_refl _⟩
        have : (dumpRows db (some p)).filter (placedTop (dumpPlace cfg (some p))) = [p] := by
          refine sorted_unique (T := fun _ => True) (lt := fun a b : Row => a.depth < b.depth ∨ (a.depth = b.depth ∧ a.path < b.path)) ?_ (fun _ _ => trivial)
            (hsorted.filter _) (by simp) ?_
          · intro a b _ _ h1 h2
            rcases h1 with h1 | h1 <;> rcases h2 with h2 | h2
            · omega
            · omega
            · omega
            · exact plt_asymm h1.2 h2.2
          · intro r
            rw [List.mem_filter, List.mem_singleton]
            unfold placedTop
            constructor
            · rintro ⟨h1, h2⟩
              rw [hplace r h1] at h2
              by_cases hc : DumpTop cfg (some p) r
              · exact hi.inv.path_inj (hrows r h1) hpm hc
              · rw [if_neg hc] at h2; simp at h2
            · rintro rfl
              exact ⟨hpd, by rw [hplace r hpd]; simp [DumpTop]⟩
        rw [this]; rfl)
    (fun r hr => valsOf_row hi.inv (hrows r hr))
  exact ⟨_, by unfold dumpBulk; rw [e]; rfl, hd keep⟩

end Verif.MP
