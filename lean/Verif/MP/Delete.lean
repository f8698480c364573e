/-
MP: deleting.
-/
import Verif.PathDesc
import Verif.MP.Count

namespace Verif.MP

variable {cfg : Cfg}

/-! ### The minimal list of nodes to remove -/

theorem found_iff (h : PInv cfg rows) (hok : cfg.Ok) {n : Row} (hn : n ∈ rows) {removed : List Row}
    (hsub : ∀ q ∈ removed, q ∈ rows) :
    ((List.range (n.path.length / cfg.steplen)).any (fun d =>
      decide (1 ≤ d) && removed.any (fun q => q.path == basepath cfg n.path d))) = true ↔
    ∃ q ∈ removed, q.path <+: n.path ∧ q ≠ n := by
  have hstep : 0 < cfg.steplen := by have := hok.step; omega
  have hnd : n.path.length / cfg.steplen = n.depth := by
    rw [h.depth n hn]; exact Nat.mul_div_cancel _ hstep
  rw [List.any_eq_true]
  constructor
  · rintro ⟨d, hd, hx⟩
    rw [List.mem_range, hnd] at hd
    rw [Bool.and_eq_true, List.any_eq_true] at hx
    obtain ⟨h1, q, hq, e⟩ := hx
    have e : q.path = basepath cfg n.path d := by simpa using e
    rw [basepath_nat] at e
    refine ⟨q, hq, e ▸ List.take_prefix _ _, ?_⟩
    rintro rfl
    have hl := congrArg List.length e
    rw [List.length_take, h.depth q hn] at hl
    have : d * cfg.steplen < q.depth * cfg.steplen := Nat.mul_lt_mul_of_pos_right hd hstep
    omega
  · rintro ⟨q, hq, hp, hne⟩
    have hqr := hsub q hq
    refine ⟨q.depth, ?_, ?_⟩
    · rw [List.mem_range, hnd]
      by_contra hc
      have hle := hp.length_le
      rw [h.depth q hqr, h.depth n hn] at hle
      have : n.depth * cfg.steplen ≤ q.depth * cfg.steplen := Nat.mul_le_mul_right _ (by omega)
      refine hne (h.inv.path_inj hqr hn (hp.eq_of_length ?_))
      rw [h.depth q hqr, h.depth n hn]; omega
    · rw [Bool.and_eq_true, List.any_eq_true]
      refine ⟨by simpa using h.depth_pos hok hqr, q, hq, ?_⟩
      rw [basepath_nat, ← h.depth q hqr, beq_iff_eq]
      exact List.prefix_iff_eq_take.1 hp

/-- What `removed` is: selected nodes, one above (or equal to) every selected node, none above another. -/
structure Removed (rows : List Row) (sel : Row → Bool) (R : List Row) : Prop where
  sub : ∀ n ∈ R, n ∈ rows ∧ sel n = true
  cover : ∀ n ∈ rows, sel n = true → ∃ q ∈ R, q.path <+: n.path
  anti : ∀ a ∈ R, ∀ b ∈ R, a.path <+: b.path → a = b
  nodup : R.Nodup

theorem removedLoop_spec (h : PInv cfg rows) (hok : cfg.Ok) : ∀ (l removed : List Row),
    (∀ n ∈ removed ++ l, n ∈ rows) →
    (removed ++ l).Pairwise (fun a b => a.depth ≤ b.depth) → (removed ++ l).Nodup →
    (∀ a ∈ removed, ∀ b ∈ removed, a.path <+: b.path → a = b) →
    (∀ n ∈ removedLoop cfg l removed, n ∈ removed ++ l) ∧
    (∀ n ∈ removed ++ l, ∃ q ∈ removedLoop cfg l removed, q.path <+: n.path) ∧
    (∀ a ∈ removedLoop cfg l removed, ∀ b ∈ removedLoop cfg l removed, a.path <+: b.path → a = b) ∧
    (removedLoop cfg l removed).Nodup := by
  intro l
  induction l with
  | nil =>
    intro removed _ _ hnd hanti
    simp only [List.append_nil, removedLoop] at *
    exact ⟨fun _ hn => hn, fun n hn => ⟨n, hn, List.prefix_refl _⟩, hanti, hnd⟩
  | cons n l ih =>
    intro removed hsub hsort hnd hanti
    have hfi := found_iff h hok (hsub n (by simp)) (removed := removed) (fun q hq => hsub q (by simp [hq]))
    simp only [removedLoop]
    split
    · rename_i hf
      obtain ⟨q, hq, hp, _⟩ := hfi.1 hf
      have hsl : (removed ++ l).Sublist (removed ++ n :: l) :=
        List.Sublist.append_left (List.sublist_cons_self _ _) _
      obtain ⟨h1, h2, h3, h4⟩ := ih removed (fun m hm => hsub m (hsl.subset hm)) (hsort.sublist hsl)
        (hnd.sublist hsl) hanti
      refine ⟨fun m hm => hsl.subset (h1 m hm), ?_, h3, h4⟩
      intro m hm
      rcases List.mem_append.1 hm with hm | hm
      · exact h2 m (by simp [hm])
      · rcases List.mem_cons.1 hm with rfl | hm
        · obtain ⟨q', hq', hp'⟩ := h2 q (by simp [hq])
          exact ⟨q', hq', hp'.trans hp⟩
        · exact h2 m (by simp [hm])
    · rename_i hf
      have e : removed ++ n :: l = (removed ++ [n]) ++ l := by simp
      rw [e] at hsub hsort hnd ⊢
      refine ih (removed ++ [n]) hsub hsort hnd ?_
      intro a ha b hb hab
      rw [List.mem_append, List.mem_singleton] at ha hb
      rcases ha with ha | rfl
      · rcases hb with hb | rfl
        · exact hanti a ha b hb hab
        · by_contra hne
          exact hf (hfi.2 ⟨a, ha, hab, hne⟩)
      · rcases hb with hb | rfl
        · have hd : b.depth ≤ a.depth :=
            (List.pairwise_append.1 (List.pairwise_append.1 hsort).1).2.2 b hb a (by simp)
          have har := hsub a (by simp)
          have hbr := hsub b (by simp [hb])
          have hle := hab.length_le
          rw [h.depth a har, h.depth b hbr] at hle
          have : b.depth * cfg.steplen ≤ a.depth * cfg.steplen := Nat.mul_le_mul_right _ hd
          refine h.inv.path_inj har hbr (hab.eq_of_length ?_)
          rw [h.depth a har, h.depth b hbr]; omega
        · rfl

theorem strictWeak_depthPath :
    StrictWeak (fun a b : Row => decide (a.depth < b.depth ∨ (a.depth = b.depth ∧ a.path < b.path))) where
  total a b := by
    simp only [decide_eq_false_iff_not]
    rcases ple_total a.path b.path with h | h
    · by_cases hd : a.depth = b.depth
      · left; rintro (h1 | ⟨_, h1⟩); omega; exact h h1
      · by_cases hl : a.depth < b.depth
        · left; rintro (h1 | ⟨h1, _⟩) <;> omega
        · right; rintro (h1 | ⟨h1, _⟩) <;> omega
    · by_cases hd : a.depth = b.depth
      · right; rintro (h1 | ⟨_, h1⟩); omega; exact h h1
      · by_cases hl : a.depth < b.depth
        · left; rintro (h1 | ⟨h1, _⟩) <;> omega
        · right; rintro (h1 | ⟨h1, _⟩) <;> omega
  trans a b c := by
    simp only [decide_eq_false_iff_not]
    intro h1 h2 h3
    rcases h3 with h3 | ⟨h3, h4⟩
    · exact h1 (Or.inl (by by_contra; exact h2 (Or.inl (by omega))))
    · have hab : a.depth = b.depth := by
        by_contra hne
        have : ¬ b.depth < a.depth := fun h => h1 (Or.inl h)
        exact h2 (Or.inl (by omega))
      exact ple_trans (fun h => h1 (Or.inr ⟨hab.symm, h⟩)) (fun h => h2 (Or.inr ⟨by omega, h⟩)) h4

theorem removed_spec (h : PInv cfg rows) (hok : cfg.Ok) (sel : Row → Bool) :
    Removed rows sel (removedLoop cfg (orderByDepthPath (rows.filter sel)) []) := by
  have hmem : ∀ n, n ∈ orderByDepthPath (rows.filter sel) ↔ n ∈ rows ∧ sel n = true := by
    intro n; rw [orderByDepthPath, mem_sortBy, List.mem_filter]
  obtain ⟨h1, h2, h3, h4⟩ := removedLoop_spec h hok (orderByDepthPath (rows.filter sel)) []
    (by intro n hn; exact ((hmem n).1 (by simpa using hn)).1)
    (by
      simp only [List.nil_append]
      refine (sortBy_sorted strictWeak_depthPath _).imp ?_
      intro a b hab
      simp only [decide_eq_false_iff_not] at hab
      by_contra hc
      exact hab (Or.inl (by omega)))
    (by
      simp only [List.nil_append]
      exact (sortBy_perm _ _).nodup_iff.2 (h.nodup.filter _))
    (by simp)
  exact ⟨fun n hn => (hmem n).1 (by simpa using h1 n hn), fun n hn hs => h2 n (by simpa using (hmem n).2 ⟨hn, hs⟩),
    h3, h4⟩

/-! ### The plan -/

/-- the number recorded for a path in the counter -/
def cntOf (E : List (List Nat × Nat)) (p : List Nat) : Nat := ((E.filter (fun e => e.1 == p)).map (·.2)).sum

theorem cntOf_cons (e : List Nat × Nat) (E : List (List Nat × Nat)) (p : List Nat) :
    cntOf (e :: E) p = (if e.1 = p then e.2 else 0) + cntOf E p := by
  unfold cntOf
  rw [List.filter_cons]
  by_cases h : e.1 = p <;> simp [h]

theorem cntOf_bump (q : List Nat) (E : List (List Nat × Nat)) (p : List Nat) :
    cntOf (bumpCounter q E) p = cntOf E p + (if q = p then 1 else 0) := by
  induction E with
  | nil => simp only [bumpCounter, cntOf_cons]; simp [cntOf]
  | cons e E ih =>
    simp only [bumpCounter]
    split
    · rename_i hq
      rw [cntOf_cons, cntOf_cons]
      simp only [hq]
      split <;> omega
    · rw [cntOf_cons, cntOf_cons, ih, Nat.add_assoc]

theorem deletePlan_spec : ∀ (R : List Row) (plan : DeletePlan),
    (deletePlan cfg R plan).pks = plan.pks ++ (R.filter Row.isLeaf).map Row.pk ∧
    (deletePlan cfg R plan).paths = plan.paths ++ (R.filter (fun r => !r.isLeaf)).map Row.path ∧
    ∀ p, p ≠ [] → cntOf (deletePlan cfg R plan).parents p =
      cntOf plan.parents p + R.countP (fun n => decide (basepath cfg n.path ((n.depth : Int) - 1) = p)) := by
  intro R
  induction R with
  | nil => intro plan; simp [deletePlan]
  | cons n R ih =>
    intro plan
    simp only [deletePlan]
    obtain ⟨h1, h2, h3⟩ := ih (if n.isLeaf = true then
        { (if basepath cfg n.path ((n.depth : Int) - 1) ≠ [] then
            { plan with parents := bumpCounter (basepath cfg n.path ((n.depth : Int) - 1)) plan.parents }
            else plan) with
          pks := (if basepath cfg n.path ((n.depth : Int) - 1) ≠ [] then
            { plan with parents := bumpCounter (basepath cfg n.path ((n.depth : Int) - 1)) plan.parents }
            else plan).pks ++ [n.pk] }
      else
        { (if basepath cfg n.path ((n.depth : Int) - 1) ≠ [] then
            { plan with parents := bumpCounter (basepath cfg n.path ((n.depth : Int) - 1)) plan.parents }
            else plan) with
          paths := (if basepath cfg n.path ((n.depth : Int) - 1) ≠ [] then
            { plan with parents := bumpCounter (basepath cfg n.path ((n.depth : Int) - 1)) plan.parents }
            else plan).paths ++ [n.path] })
    refine ⟨h1.trans ?_, h2.trans ?_, fun p hp => (h3 p hp).trans ?_⟩
    · by_cases hl : n.isLeaf = true <;> by_cases hb : basepath cfg n.path ((n.depth : Int) - 1) = [] <;>
        simp [hl, hb]
    · by_cases hl : n.isLeaf = true <;> by_cases hb : basepath cfg n.path ((n.depth : Int) - 1) = [] <;>
        simp [hl, hb]
    · rw [List.countP_cons]
      by_cases hb : basepath cfg n.path ((n.depth : Int) - 1) = []
      · have : ¬ ([] : List Nat) = p := fun e => hp e.symm
        by_cases hl : n.isLeaf = true <;> simp [hl, hb, this]
      · by_cases hl : n.isLeaf = true <;> simp [hl, hb, cntOf_bump] <;> omega

/-- executing updates of children counts -/
theorem exec_lose : ∀ (E : List (List Nat × Nat)) (db : DB),
    ∃ g, ((E.map (fun e => DelStmt.lose e.1 e.2)).foldl execDel db) = { db with rows := db.rows.map g } ∧
      OnlyNum g ∧ ∀ r, (cntOf E r.path : Int) ≤ r.numchild → (g r).numchild = r.numchild - cntOf E r.path := by
  intro E
  induction E with
  | nil =>
    intro db
    exact ⟨fun r => r, by simp, .id, by intro r _; simp [cntOf]⟩
  | cons e E ih =>
    intro db
    obtain ⟨g, hg, og, ng⟩ := ih (execDel db (.lose e.1 e.2))
    let f : Row → Row := fun r => if r.path == e.1 then { r with numchild := max (r.numchild - e.2) 0 } else r
    have of : OnlyNum f := by
      constructor <;> intro r <;> simp only [f] <;> split <;> rfl
    refine ⟨fun r => g (f r), ?_, of.comp og, ?_⟩
    · rw [List.map_cons, List.foldl_cons, hg]
      simp only [execDel, List.map_map]
      rfl
    · intro r hr
      rw [cntOf_cons] at hr
      have hf : (f r).numchild = r.numchild - ((if e.1 = r.path then e.2 else 0 : Nat) : Int) := by
        simp only [f]
        by_cases he : e.1 = r.path
        · rw [if_pos he] at hr ⊢
          simp only [he, beq_self_eq_true, if_true]
          push_cast at hr
          omega
        · rw [if_neg he] at hr ⊢
          have : ¬ r.path = e.1 := fun h => he h.symm
          simp [this]
      rw [ng (f r), of.path, hf, cntOf_cons]
      · push_cast; omega
      · rw [of.path, hf]; push_cast at hr ⊢; omega

/-! ### Deleting -/

theorem leaf_no_desc (h : Inv cfg rows) (hok : cfg.Ok) {n r : Row} (hn : n ∈ rows) (hr : r ∈ rows)
    (hl : n.isLeaf = true) (hp : n.path <+: r.path) : r = n := by
  by_contra hne
  have hstep : 0 < cfg.steplen := by have := hok.step; omega
  have hd := (desc_iff h.inv hstep hn hr).2 ⟨hp, Ne.symm hne⟩
  obtain ⟨c, hc, _⟩ := hd.cases_head
  have h0 : n.numchild = 0 := by simpa [Row.isLeaf] using hl
  have h1 := h.num n hn
  rw [h0] at h1
  have h2 : (PF cfg rows (some n.pk)).length = 0 := by omega
  rw [List.length_eq_zero_iff] at h2
  rw [show pforest cfg.steplen Row.pk Row.path rows = PF cfg rows from rfl, h2] at hc
  exact absurd hc (by simp)

theorem delMatches_iff (h : Inv cfg rows) (hok : cfg.Ok) {R : List Row} (hR : ∀ n ∈ R, n ∈ rows) {r : Row}
    (hr : r ∈ rows) :
    delMatches ((R.filter Row.isLeaf).map Row.pk) ((R.filter (fun r => !r.isLeaf)).map Row.path) r = true ↔
      ∃ n ∈ R, n.path <+: r.path := by
  unfold delMatches
  rw [Bool.or_eq_true, List.contains_iff_mem, List.any_eq_true]
  simp only [List.mem_map, List.mem_filter, Bool.not_eq_true', List.isPrefixOf_iff_prefix]
  constructor
  · rintro (⟨n, ⟨hn, _⟩, e⟩ | ⟨p, ⟨n, ⟨hn, _⟩, rfl⟩, hp⟩)
    · exact ⟨n, hn, h.inv.pk_inj (hR n hn) hr e ▸ List.prefix_refl _⟩
    · exact ⟨n, hn, hp⟩
  · rintro ⟨n, hn, hp⟩
    cases hl : n.isLeaf with
    | true => exact Or.inl ⟨n, ⟨hn, hl⟩, (leaf_no_desc h hok (hR n hn) hr hl hp) ▸ rfl⟩
    | false => exact Or.inr ⟨n.path, ⟨n, ⟨hn, hl⟩, rfl⟩, hp⟩

/-- the rows a deletion removes: those with a selected row at or above -/
def doomed (rows : List Row) (sel : Row → Bool) (r : Row) : Bool :=
  rows.any (fun q => sel q && q.path.isPrefixOf r.path)

theorem doomed_iff {rows : List Row} {sel : Row → Bool} {r : Row} :
    doomed rows sel r = true ↔ ∃ q ∈ rows, sel q = true ∧ q.path <+: r.path := by
  simp [doomed]

theorem Removed.doomed_iff (hR : Removed rows sel R) {r : Row} :
    doomed rows sel r = true ↔ ∃ n ∈ R, n.path <+: r.path := by
  rw [MP.doomed_iff]
  constructor
  · rintro ⟨q, hq, hs, hp⟩
    obtain ⟨n, hn, hp'⟩ := hR.cover q hq hs
    exact ⟨n, hn, hp'.trans hp⟩
  · rintro ⟨n, hn, hp⟩
    exact ⟨n, (hR.sub n hn).1, (hR.sub n hn).2, hp⟩

/-- the keys of the doomed rows -/
def doomedPk (rows : List Row) (sel : Row → Bool) (k : Nat) : Bool :=
  rows.any (fun r => r.pk == k && doomed rows sel r)

theorem doomedPk_iff {rows : List Row} {sel : Row → Bool} {k : Nat} :
    doomedPk rows sel k = true ↔ ∃ r ∈ rows, r.pk = k ∧ doomed rows sel r = true := by
  simp [doomedPk]

/-- What `delete` does to a consistent table. -/
structure Deleted (cfg : Cfg) (db db' : DB) (sel : Row → Bool) : Prop where
  inv : Inv cfg db'.rows
  forest : PF cfg db'.rows = (PF cfg db.rows).prune (doomedPk db.rows sel)
  data : data db'.rows = data (db.rows.filter (fun r => !doomed db.rows sel r))

theorem prune_counts (h : Inv cfg rows) (hok : cfg.Ok) (hR : Removed rows sel R) {q : Row} (hq : q ∈ rows)
    (hk : doomed rows sel q = false) :
    (R.countP (fun n => decide (pp cfg.steplen n.path = q.path)) : Int) +
      ((rows.filter (fun r => !doomed rows sel r)).countP
        (fun r => decide (pp cfg.steplen r.path = q.path)) : Int) = q.numchild := by
  have hstep : 0 < cfg.steplen := by have := hok.step; omega
  rw [h.num q hq, length_PF]
  have e1 : rows.countP (fun r => decide (par cfg rows r = some q.pk)) =
      rows.countP (fun r => decide (pp cfg.steplen r.path = q.path)) := by
    apply List.countP_congr
    intro r hr
    simp only [decide_eq_true_eq]
    constructor
    · intro hp
      obtain ⟨q', hq', e, hk'⟩ := (parOf_eq_some h.inv).1 hp
      rw [← e, h.inv.pk_inj hq' hq hk']
    · intro e; exact (parOf_eq_some h.inv).2 ⟨q, hq, e.symm, rfl⟩
  rw [e1]
  have e2 : R.countP (fun n => decide (pp cfg.steplen n.path = q.path)) =
      (rows.filter (fun r => doomed rows sel r)).countP (fun r => decide (pp cfg.steplen r.path = q.path)) := by
    rw [List.countP_eq_length_filter, List.countP_eq_length_filter]
    apply List.Perm.length_eq
    apply (List.perm_ext_iff_of_nodup (hR.nodup.filter _) ((h.nodup.filter _).filter _)).2
    intro n
    simp only [List.mem_filter, decide_eq_true_eq]
    constructor
    · rintro ⟨hn, e⟩
      exact ⟨⟨(hR.sub n hn).1, hR.doomed_iff.2 ⟨n, hn, List.prefix_refl _⟩⟩, e⟩
    · rintro ⟨⟨hn, hd⟩, e⟩
      obtain ⟨m, hm, hp⟩ := hR.doomed_iff.1 hd
      refine ⟨?_, e⟩
      by_cases hmn : m = n
      · exact hmn ▸ hm
      · have := prefix_pp h.inv (hR.sub m hm).1 hn hp hmn
        rw [e] at this
        rw [Bool.eq_false_iff] at hk
        exact absurd (hR.doomed_iff.2 ⟨m, hm, this⟩) hk
  rw [e2]
  have := List.countP_eq_countP_filter_add rows (fun r => decide (pp cfg.steplen r.path = q.path)) (doomed rows sel)
  push_cast [this]
  rfl

/-- counting children by paths -/
theorem length_PF_pp (h : PInv cfg rows) {q : Row} (hq : q ∈ rows) :
    (PF cfg rows (some q.pk)).length = rows.countP (fun r => decide (pp cfg.steplen r.path = q.path)) := by
  rw [length_PF]
  apply List.countP_congr
  intro r hr
  simp only [decide_eq_true_eq]
  constructor
  · intro hp
    obtain ⟨q', hq', e, hk'⟩ := (parOf_eq_some h.inv).1 hp
    rw [← e, h.inv.pk_inj hq' hq hk']
  · intro e; exact (parOf_eq_some h.inv).2 ⟨q, hq, e.symm, rfl⟩

theorem doomed_closed (rows : List Row) (sel : Row → Bool) : ∀ r ∈ rows, ∀ q ∈ rows,
    q.path = pp cfg.steplen r.path → (!doomed rows sel r) = true → (!doomed rows sel q) = true := by
  intro r _ q _ e hk
  rw [Bool.not_eq_true', Bool.eq_false_iff] at hk ⊢
  intro hd
  obtain ⟨n, hn, hs, hp⟩ := doomed_iff.1 hd
  exact hk (doomed_iff.2 ⟨n, hn, hs, hp.trans (e ▸ pp_prefix _)⟩)

theorem PInv.filter (h : PInv cfg rows) {keep : Row → Bool}
    (hclosed : ∀ r ∈ rows, ∀ q ∈ rows, q.path = pp cfg.steplen r.path → keep r = true → keep q = true) :
    PInv cfg (rows.filter keep) :=
  ⟨del_inv h.inv hclosed, fun r hr => h.chars r (List.mem_filter.1 hr).1,
    fun r hr => h.depth r (List.mem_filter.1 hr).1, fun r hr => h.pos r (List.mem_filter.1 hr).1⟩

theorem doomedPk_pk (h : PInv cfg rows) (sel : Row → Bool) {r : Row} (hr : r ∈ rows) :
    doomedPk rows sel r.pk = doomed rows sel r := by
  rw [Bool.eq_iff_iff, doomedPk_iff]
  constructor
  · rintro ⟨q, hq, e, hd⟩; rwa [← h.inv.pk_inj hq hr e]
  · intro hd; exact ⟨r, hr, rfl, hd⟩

theorem PF_filter (h : PInv cfg rows) (sel : Row → Bool) :
    PF cfg (rows.filter (fun r => !doomed rows sel r)) = (PF cfg rows).prune (doomedPk rows sel) := by
  refine del_prune h.inv (doomed_closed rows sel) ?_ (shows_pforest h.inv)
    (shows_pforest (del_inv h.inv (doomed_closed rows sel)))
  intro r hr
  rw [doomedPk_pk h sel hr, Bool.not_not]

/-- the statements of a deletion: updates of counts, then one deletion -/
theorem deleteStmts_eq (cfg : Cfg) (db : DB) (sel : Row → Bool) : ∃ E R,
    R = removedLoop cfg (orderByDepthPath (db.rows.filter sel)) [] ∧
    deleteStmts cfg db sel = E.map (fun e => DelStmt.lose e.1 e.2) ++
      [.delete ((R.filter Row.isLeaf).map Row.pk) ((R.filter (fun r => !r.isLeaf)).map Row.path)] ∧
    ∀ p, p ≠ [] → cntOf E p = R.countP (fun n => decide (basepath cfg n.path ((n.depth : Int) - 1) = p)) := by
  refine ⟨(deletePlan cfg (removedLoop cfg (orderByDepthPath (db.rows.filter sel)) []) ⟨[], [], []⟩).parents,
    _, rfl, ?_, ?_⟩
  · unfold deleteStmts
    obtain ⟨h1, h2, _⟩ := deletePlan_spec (cfg := cfg)
      (removedLoop cfg (orderByDepthPath (db.rows.filter sel)) []) ⟨[], [], []⟩
    simp only [h1, h2, List.nil_append]
  · intro p hp
    obtain ⟨_, _, h3⟩ := deletePlan_spec (cfg := cfg)
      (removedLoop cfg (orderByDepthPath (db.rows.filter sel)) []) ⟨[], [], []⟩
    rw [h3 p hp]
    simp [cntOf]

theorem delete_rows (hok : cfg.Ok) {db : DB} (h : Inv cfg db.rows) (sel : Row → Bool) : ∃ g R,
    R = removedLoop cfg (orderByDepthPath (db.rows.filter sel)) [] ∧ Removed db.rows sel R ∧
    (delete cfg db sel).rows = (db.rows.filter (fun r => !doomed db.rows sel r)).map g ∧ OnlyNum g ∧
    (∀ r ∈ db.rows, doomed db.rows sel r = false →
      (g r).numchild = r.numchild - R.countP (fun n => decide (pp cfg.steplen n.path = r.path))) ∧
    (delete cfg db sel).sigs = if R = [] then db.sigs else db.sigs ++
      [.nodesDeleted ((R.filter Row.isLeaf).map Row.pk) ((R.filter (fun r => !r.isLeaf)).map Row.path)] := by
  obtain ⟨E, R, rfl, hst, hcnt⟩ := deleteStmts_eq cfg db sel
  have hR := removed_spec h.toPInv hok sel
  obtain ⟨g, hg, og, ng⟩ := exec_lose E db
  refine ⟨g, _, rfl, hR, ?_, og, ?_, ?_⟩
  · unfold delete
    rw [hst, List.foldl_append, hg, List.foldl_cons, List.foldl_nil]
    simp only [execDel]
    rw [List.filter_map]
    congr 1
    apply List.filter_congr
    intro r hr
    simp only [Function.comp]
    congr 1
    rw [Bool.eq_iff_iff, hR.doomed_iff, ← delMatches_iff h hok (fun n hn => (hR.sub n hn).1) hr]
    unfold delMatches
    rw [og.pk, og.path]
  · intro r hr hk
    have hne : r.path ≠ [] := by
      intro e
      have := (h.inv.len r hr).2
      have := hok.step
      rw [e] at *
      simp at *
      omega
    have hc : cntOf E r.path = (removedLoop cfg (orderByDepthPath (db.rows.filter sel)) []).countP
        (fun n => decide (pp cfg.steplen n.path = r.path)) := by
      rw [hcnt _ hne]
      apply List.countP_congr
      intro n hn
      rw [h.toPInv.basepath hok (hR.sub n hn).1]
    rw [ng r, hc]
    rw [hc]
    have := prune_counts h hok hR hr hk
    omega
  · unfold delete
    rw [hst, List.foldl_append, hg, List.foldl_cons, List.foldl_nil]
    simp only [execDel]
    by_cases hnil : removedLoop cfg (orderByDepthPath (db.rows.filter sel)) [] = []
    · rw [if_pos hnil, hnil]
      rw [if_neg]
      simp [delMatches]
    · rw [if_neg hnil, if_pos]
      obtain ⟨n, hn⟩ := List.exists_mem_of_ne_nil _ hnil
      rw [List.any_eq_true]
      refine ⟨g n, List.mem_map_of_mem (hR.sub n hn).1, ?_⟩
      have := (delMatches_iff h hok (fun n hn => (hR.sub n hn).1) (hR.sub n hn).1).2 ⟨n, hn, List.prefix_refl _⟩
      unfold delMatches at this ⊢
      rwa [og.pk, og.path]

/-- `delete` of any selection of nodes keeps the table consistent, and the tree afterwards is the tree before
without the selected nodes and everything below them; the remaining nodes keep their data. -/
theorem delete_spec (hok : cfg.Ok) {db : DB} (h : Inv cfg db.rows) (sel : Row → Bool) :
    Deleted cfg db (delete cfg db sel) sel := by
  obtain ⟨g, R, _, hR, e, og, ng, _⟩ := delete_rows hok h sel
  have hp := h.toPInv.filter (doomed_closed db.rows sel)
  refine ⟨⟨e ▸ og.pinv hp, ?_⟩, ?_, ?_⟩
  · rw [e]
    intro r' hr'
    obtain ⟨r, hr, rfl⟩ := List.mem_map.1 hr'
    have hr0 := List.mem_filter.1 hr
    have hk : doomed db.rows sel r = false := by simpa using hr0.2
    rw [og.forest hp, og.pk, length_PF_pp hp hr, ng r hr0.1 hk]
    have := prune_counts h hok hR hr0.1 hk
    omega
  · rw [e, og.forest hp]
    exact PF_filter h.toPInv sel
  · rw [e]
    exact data_map og.pk og.vals _

end Verif.MP
