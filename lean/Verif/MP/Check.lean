/-
Model of treebeard/mp_tree.py: find_problems and fix_tree without fix_paths, and what they do.
-/
import Verif.MP.Query
import Verif.MP.Count

namespace Verif.MP

/-! ### Model -/

/-- the five lists of `find_problems` -/
inductive Problem where
  | evilChars | badSteplen | orphan | wrongDepth | wrongNumchild
deriving DecidableEq, Repr

/-- mp_tree.py:328-332: the real number of children.  `Length("path") / steplen` is an integer division. -/
def realNumchild (cfg : Cfg) (db : DB) (node : Row) : Nat :=
  (db.rows.filter (fun r => inRange r (childrenInterval cfg node.path) &&
    r.path.length / cfg.steplen == node.depth + 1)).length

/-- mp_tree.py:307-335: the body of the loop, for one node -/
def problemOf (cfg : Cfg) (db : DB) (node : Row) : Option Problem :=
  if node.path.any (fun c => !cfg.alphabet.contains c) then some .evilChars
  else if node.path.length % cfg.steplen ≠ 0 then some .badSteplen
  else match getParent cfg db node with
    | .error _ => some .orphan
    | .ok _ =>
      if node.depth ≠ node.path.length / cfg.steplen then some .wrongDepth
      else if (realNumchild cfg db node : Int) ≠ node.numchild then some .wrongNumchild
      else none

/-- the rows of `path__startswith=parent.path` (mp_tree.py:158, 299-302), or all rows -/
def inBranch (parent : Option Row) (r : Row) : Bool :=
  match parent with
  | none => true
  | some p => p.path.isPrefixOf r.path

/-- mp_tree.py:271-337 `find_problems`: the five lists are `findProblems .. p` for the five problems `p` -/
def findProblems (cfg : Cfg) (db : DB) (parent : Option Row) (p : Problem) : List Nat :=
  ((orderByPath (db.rows.filter (inBranch parent))).filter (fun r => problemOf cfg db r == some p)).map Row.pk

/-- mp_tree.py:161: the `depth` column -/
def fixDepthRow (cfg : Cfg) (r : Row) : Row := { r with depth := r.path.length / cfg.steplen }

/-- mp_tree.py:246-269 `_fix_numchild` (MySQL branch and other databases give the same table) -/
def fixNumRow (cfg : Cfg) (rows : List Row) (r : Row) : Row :=
  { r with numchild := ((rows.filter (fun q =>
      r.path.isPrefixOf q.path && q.path.length == r.path.length + cfg.steplen)).length : Int) }

/-- mp_tree.py:125-164 `fix_tree(fix_paths=False)` -/
def fixTree (cfg : Cfg) (db : DB) (parent : Option Row) : DB :=
  let db := { db with rows := db.rows.map (fun r => if inBranch parent r then fixDepthRow cfg r else r) }
  { db with rows := db.rows.map (fun r => if inBranch parent r then fixNumRow cfg db.rows r else r) }

/-! ### find_problems -/

variable {cfg : Cfg} {db : DB}

/-- `q` is `p` and one more step -/
def childPath (L : Nat) (p q : List Nat) : Bool := decide (p = q.take p.length ∧ q.length = p.length + L)

theorem childPath_iff {L : Nat} {p q : List Nat} : childPath L p q = true ↔ ∃ s, s.length = L ∧ q = p ++ s := by
  unfold childPath
  rw [decide_eq_true_eq]
  constructor
  · rintro ⟨h1, h2⟩
    refine ⟨q.drop p.length, by rw [List.length_drop]; omega, ?_⟩
    conv_rhs => rw [h1]
    rw [List.length_take, Nat.min_eq_left (by omega), List.take_append_drop]
  · rintro ⟨s, rfl, rfl⟩
    simp

/-- What `find_problems` checks of a table, said without its helpers. -/
structure RowsSound (cfg : Cfg) (rows : List Row) : Prop where
  chars : ∀ r ∈ rows, ∀ c ∈ r.path, c ∈ cfg.alphabet
  steplen : ∀ r ∈ rows, cfg.steplen ∣ r.path.length
  parent : ∀ r ∈ rows, cfg.steplen < r.path.length →
    ∃ q ∈ rows, ∃ s, s.length = cfg.steplen ∧ r.path = q.path ++ s
  depth : ∀ r ∈ rows, r.path.length = r.depth * cfg.steplen
  numchild : ∀ r ∈ rows, r.numchild =
    ((rows.filter (fun q => childPath cfg.steplen r.path q.path)).length : Int)

theorem split_step {L : Nat} {p q : List Nat} (h : L ≤ p.length) :
    (∃ s, s.length = L ∧ p = q ++ s) ↔ pp L p = q := by
  constructor
  · rintro ⟨s, hs, rfl⟩; exact pp_append_step hs
  · rintro rfl; exact ⟨lastSeg L p, lastSeg_length h, (pp_append_lastSeg p).symm⟩

theorem getParent_ok_iff (hok : cfg.Ok) {r : Row} (hlen : cfg.steplen ∣ r.path.length) :
    (∃ o, getParent cfg db r = .ok o) ↔
      (cfg.steplen < r.path.length → ∃ q ∈ db.rows, q.path = pp cfg.steplen r.path) := by
  obtain ⟨d, hd⟩ := hlen
  have hs := hok.step
  have hdiv : r.path.length / cfg.steplen = d := by rw [hd]; exact Nat.mul_div_cancel_left _ hs
  unfold getParent
  simp only [hdiv]
  by_cases h1 : d ≤ 1
  · rw [if_pos h1]
    have : ¬ cfg.steplen < r.path.length := by
      rw [hd]
      have : cfg.steplen * d ≤ cfg.steplen * 1 := Nat.mul_le_mul_left _ h1
      omega
    simp [this]
  · rw [if_neg h1]
    have hlt : cfg.steplen < r.path.length := by
      rw [hd]
      have : cfg.steplen * 2 ≤ cfg.steplen * d := Nat.mul_le_mul_left _ (by omega)
      omega
    rw [basepath_parent (by omega) (by rw [hd, Nat.mul_comm])]
    simp only [hlt, true_implies]
    unfold getByPath
    cases hf : db.rows.find? (·.path == pp cfg.steplen r.path) with
    | none =>
      rw [List.find?_eq_none] at hf
      simp only [reduceCtorEq, exists_false, false_iff, not_exists, not_and]
      intro q hq e
      exact absurd e (by simpa using hf q hq)
    | some q =>
      simp only [Except.ok.injEq, exists_eq', true_iff]
      exact ⟨q, List.mem_of_find?_eq_some hf, by simpa using List.find?_some hf⟩

/-- the count made by `find_problems`, when all rows have good characters and lengths -/
theorem realNumchild_eq (hok : cfg.Ok) (hc : ∀ r ∈ db.rows, ∀ c ∈ r.path, c ∈ cfg.alphabet)
    (hl : ∀ r ∈ db.rows, cfg.steplen ∣ r.path.length) {r : Row} (hr : r ∈ db.rows)
    (hd : r.depth = r.path.length / cfg.steplen) : realNumchild cfg db r =
      (db.rows.filter (fun q => childPath cfg.steplen r.path q.path)).length := by
  unfold realNumchild
  congr 1
  apply List.filter_congr
  intro q hq
  have hs := hok.step
  obtain ⟨a, ha⟩ := hl q hq
  obtain ⟨b, hb⟩ := hl r hr
  have hqa : q.path.length / cfg.steplen = a := by rw [ha]; exact Nat.mul_div_cancel_left _ hs
  have hrb : r.depth = b := by rw [hd, hb]; exact Nat.mul_div_cancel_left _ hs
  rw [Bool.eq_iff_iff, Bool.and_eq_true, beq_iff_eq, childPath_iff, hqa, hrb]
  constructor
  · rintro ⟨h1, h2⟩
    have hlen : q.path.length = r.path.length + cfg.steplen := by rw [ha, hb, h2, Nat.mul_add, Nat.mul_one]
    exact (split_step (by omega)).2 ((inRange_iff hok hlen (hc q hq)).1 h1)
  · rintro ⟨s, hsl, e⟩
    have hlen : q.path.length = r.path.length + cfg.steplen := by rw [e, List.length_append, hsl]
    refine ⟨(inRange_iff hok hlen (hc q hq)).2 (by rw [e]; exact pp_append_step hsl), ?_⟩
    rw [ha, hb] at hlen
    refine Nat.eq_of_mul_eq_mul_left hs (n := cfg.steplen) (m := a) (k := b + 1) ?_
    rw [hlen, Nat.mul_add, Nat.mul_one]

theorem problemOf_none_iff {r : Row} : problemOf cfg db r = none ↔
    (∀ c ∈ r.path, c ∈ cfg.alphabet) ∧ r.path.length % cfg.steplen = 0 ∧ (∃ o, getParent cfg db r = .ok o) ∧
      r.depth = r.path.length / cfg.steplen ∧ (realNumchild cfg db r : Int) = r.numchild := by
  unfold problemOf
  have e1 : (r.path.any (fun c => !cfg.alphabet.contains c)) = true ↔ ¬ ∀ c ∈ r.path, c ∈ cfg.alphabet := by
    simp
  by_cases h1 : ∀ c ∈ r.path, c ∈ cfg.alphabet
  · rw [if_neg (by rw [e1]; exact not_not.2 h1)]
    by_cases h2 : r.path.length % cfg.steplen = 0
    · rw [if_neg (by simpa using h2)]
      cases h3 : getParent cfg db r with
      | error e => simp
      | ok o =>
        simp only
        by_cases h4 : r.depth = r.path.length / cfg.steplen
        · rw [if_neg (by simpa using h4)]
          by_cases h5 : (realNumchild cfg db r : Int) = r.numchild
          · rw [if_neg (by simpa using h5)]; simp [h2, ← h4, h5]; exact h1
          · rw [if_pos h5]; simp [h5]
        · rw [if_pos h4]; simp [h4]
    · rw [if_pos h2]; simp [h2]
  · rw [if_pos (e1.2 h1)]; simp [h1]

theorem findProblems_nil_iff {parent : Option Row} : (∀ p, findProblems cfg db parent p = []) ↔
    ∀ r ∈ db.rows, inBranch parent r = true → problemOf cfg db r = none := by
  unfold findProblems
  constructor
  · intro h r hr hb
    cases hp : problemOf cfg db r with
    | none => rfl
    | some p =>
      have := h p
      rw [List.map_eq_nil_iff, List.filter_eq_nil_iff] at this
      exact absurd (this r (mem_orderByPath.2 (List.mem_filter.2 ⟨hr, hb⟩))) (by simp [hp])
  · intro h p
    rw [List.map_eq_nil_iff, List.filter_eq_nil_iff]
    intro r hr
    obtain ⟨hr, hb⟩ := List.mem_filter.1 (mem_orderByPath.1 hr)
    simp [h r hr hb]

/-- **find_problems() reports nothing exactly on sound tables.** -/
theorem findProblems_iff (hok : cfg.Ok) :
    (∀ p, findProblems cfg db none p = []) ↔ RowsSound cfg db.rows := by
  rw [findProblems_nil_iff]
  simp only [inBranch, true_implies, problemOf_none_iff]
  have hs := hok.step
  constructor
  · intro h
    have hc : ∀ r ∈ db.rows, ∀ c ∈ r.path, c ∈ cfg.alphabet := fun r hr => (h r hr).1
    have hl : ∀ r ∈ db.rows, cfg.steplen ∣ r.path.length := fun r hr => Nat.dvd_of_mod_eq_zero (h r hr).2.1
    refine ⟨hc, hl, ?_, ?_, ?_⟩
    · intro r hr hlt
      obtain ⟨q, hq, e⟩ := (getParent_ok_iff hok (hl r hr)).1 (h r hr).2.2.1 hlt
      exact ⟨q, hq, (split_step (by omega)).2 e.symm⟩
    · intro r hr
      rw [(h r hr).2.2.2.1]
      exact (Nat.div_mul_cancel (hl r hr)).symm
    · intro r hr
      rw [← (h r hr).2.2.2.2, realNumchild_eq hok hc hl hr (h r hr).2.2.2.1]
  · intro h r hr
    have hd : r.depth = r.path.length / cfg.steplen := by
      rw [h.depth r hr]; exact (Nat.mul_div_cancel _ hs).symm
    refine ⟨h.chars r hr, Nat.mod_eq_zero_of_dvd (h.steplen r hr), ?_, hd, ?_⟩
    · rw [getParent_ok_iff hok (h.steplen r hr)]
      intro hlt
      obtain ⟨q, hq, hx⟩ := h.parent r hr hlt
      exact ⟨q, hq, ((split_step (by omega)).1 hx).symm⟩
    · rw [realNumchild_eq hok h.chars h.steplen hr hd, h.numchild r hr]

/-- no node is listed in two of the lists -/
theorem findProblems_disjoint (hn : (db.rows.map Row.pk).Nodup) {parent : Option Row} {p q : Problem} {k : Nat}
    (h1 : k ∈ findProblems cfg db parent p) (h2 : k ∈ findProblems cfg db parent q) : p = q := by
  unfold findProblems at h1 h2
  simp only [List.mem_map, List.mem_filter, mem_orderByPath, beq_iff_eq] at h1 h2
  obtain ⟨a, ⟨⟨ha, _⟩, ea⟩, rfl⟩ := h1
  obtain ⟨b, ⟨⟨hb, _⟩, eb⟩, e⟩ := h2
  have : b = a := nodup_map_inj hn hb ha e
  subst this
  rw [ea] at eb
  exact Option.some.inj eb

/-- no node is listed twice in one of the lists -/
theorem findProblems_nodup (hn : (db.rows.map Row.pk).Nodup) (parent : Option Row) (p : Problem) :
    (findProblems cfg db parent p).Nodup := by
  unfold findProblems
  have h1 : ((orderByPath (db.rows.filter (inBranch parent))).map Row.pk).Nodup :=
    ((sortBy_perm _ _).map Row.pk).nodup_iff.2 (hn.sublist (List.filter_sublist.map _))
  exact h1.sublist (List.filter_sublist.map _)

/-! ### Sound tables and the invariant -/

/-- A consistent table, said with the API: keys and paths unique (database constraints), `find_problems()`
reports nothing, no path is empty and no last step is the zero step (no operation ever writes such a path). -/
structure Consistent (cfg : Cfg) (db : DB) : Prop where
  pks : (db.rows.map Row.pk).Nodup
  paths : (db.rows.map Row.path).Nodup
  problems : ∀ p, findProblems cfg db none p = []
  nonempty : ∀ r ∈ db.rows, r.path ≠ []
  nonzero : ∀ r ∈ db.rows, ¬ List.replicate cfg.steplen (cfg.alphabet.headD 0) <:+ r.path

theorem consistent_iff (hok : cfg.Ok) : Consistent cfg db ↔ Inv cfg db.rows := by
  have hs := hok.step
  constructor
  · rintro ⟨h1, h2, h3, h4, h5⟩
    obtain ⟨hc, hl, hp, hd, hn⟩ := (findProblems_iff hok).1 h3
    have hlen : ∀ r ∈ db.rows, cfg.steplen ≤ r.path.length := by
      intro r hr
      refine Nat.le_of_dvd ?_ (hl r hr)
      exact List.length_pos_iff.2 (h4 r hr)
    have hinv : PI cfg db.rows := by
      refine ⟨h1, h2, fun r hr => ⟨hl r hr, hlen r hr⟩, ?_⟩
      intro r hr hlt
      obtain ⟨q, hq, hx⟩ := hp r hr hlt
      exact ⟨q, hq, ((split_step (by omega)).1 hx).symm⟩
    have hpi : PInv cfg db.rows := by
      refine ⟨hinv, hc, hd, ?_⟩
      intro r hr
      obtain ⟨n, hn, e⟩ := exists_stp hok (lastSeg_length (hlen r hr)) (fun c hc' => hc r hr c (List.mem_of_mem_drop hc'))
      refine ⟨n, ?_, hn, by rw [← e, pp_append_lastSeg]⟩
      rcases Nat.eq_zero_or_pos n with rfl | h
      · exfalso
        refine h5 r hr ⟨pp cfg.steplen r.path, ?_⟩
        have := pad_eq_stp hok
        unfold pad at this
        rw [this, ← e, pp_append_lastSeg]
      · exact h
    refine ⟨hpi, ?_⟩
    intro r hr
    rw [hn r hr, length_PF, List.countP_eq_length_filter]
    congr 2
    apply List.filter_congr
    intro q hq
    rw [Bool.eq_iff_iff, decide_eq_true_eq, par_eq_some_iff hinv hr, childPath_iff]
    exact split_step (hlen q hq)
  · intro h
    refine ⟨h.inv.pkNodup, h.inv.pathNodup, (findProblems_iff hok).2 ⟨h.chars, fun r hr => (h.inv.len r hr).1, ?_,
      h.depth, ?_⟩, ?_, ?_⟩
    · intro r hr hlt
      obtain ⟨q, hq, e⟩ := h.inv.closed r hr hlt
      exact ⟨q, hq, (split_step (by omega)).2 e.symm⟩
    · intro r hr
      rw [h.num r hr, length_PF, List.countP_eq_length_filter]
      congr 2
      apply List.filter_congr
      intro q hq
      rw [Bool.eq_iff_iff, decide_eq_true_eq, par_eq_some_iff h.inv hr, childPath_iff]
      exact (split_step (h.inv.len q hq).2).symm
    · intro r hr e
      have := (h.inv.len r hr).2
      rw [e] at this
      simp at this
      omega
    · rintro r hr ⟨q, e⟩
      obtain ⟨n, hn1, hn, hx⟩ := h.pos r hr
      have hz := pad_eq_stp hok
      unfold pad at hz
      rw [hz] at e
      have e := e.symm
      have hcap := cap_gt_one hok
      have e1 : pp cfg.steplen r.path = q := by
        rw [e]; exact pp_append_step (stp_length hok (by omega))
      rw [e1, e] at hx
      have := stp_inj hok (by omega) hn (List.append_cancel_left hx)
      omega

/-! ### fix_tree -/

/-- counting children by prefix and length -/
theorem fixNum_count (rows : List Row) (r : Row) :
    rows.filter (fun q => r.path.isPrefixOf q.path && q.path.length == r.path.length + cfg.steplen) =
      rows.filter (fun q => childPath cfg.steplen r.path q.path) := by
  apply List.filter_congr
  intro q _
  rw [Bool.eq_iff_iff, Bool.and_eq_true, List.isPrefixOf_iff_prefix, beq_iff_eq, childPath_iff]
  constructor
  · rintro ⟨⟨s, e⟩, hl⟩
    refine ⟨s, ?_, e.symm⟩
    rw [← e, List.length_append] at hl; omega
  · rintro ⟨s, hs, e⟩
    rw [e]
    exact ⟨List.prefix_append _ _, by rw [List.length_append, hs]⟩

/-- the row as repaired -/
def fixedRow (cfg : Cfg) (rows : List Row) (r : Row) : Row :=
  { r with depth := r.path.length / cfg.steplen,
           numchild := ((rows.filter (fun q => childPath cfg.steplen r.path q.path)).length : Int) }

theorem filter_paths_length {f : Row → Row} (hf : ∀ r, (f r).path = r.path) (rows : List Row) (Q : List Nat → Bool) :
    ((rows.map f).filter (fun r => Q r.path)).length = (rows.filter (fun r => Q r.path)).length := by
  rw [List.filter_map, List.length_map]
  congr 1
  apply List.filter_congr
  intro r _
  simp [hf]

/-- what `fix_tree` does to the table -/
theorem fixTree_rows (cfg : Cfg) (db : DB) (parent : Option Row) : (fixTree cfg db parent).rows =
    db.rows.map (fun r => if inBranch parent r then fixedRow cfg db.rows r else r) := by
  unfold fixTree
  simp only [List.map_map]
  apply List.map_congr_left
  intro r _
  have hb : ∀ r : Row, inBranch parent (if inBranch parent r then fixDepthRow cfg r else r) = inBranch parent r := by
    intro r
    cases h : inBranch parent r with
    | true => simp [fixDepthRow, inBranch] at h ⊢; exact h
    | false => simpa using h
  simp only [Function.comp, hb]
  cases h : inBranch parent r with
  | false => simp
  | true =>
    simp only [if_true]
    unfold fixNumRow fixedRow fixDepthRow
    simp only
    congr 2
    rw [← fixNum_count]
    have := filter_paths_length (f := fun r => if inBranch parent r = true then fixDepthRow cfg r else r)
      (by intro r; split <;> rfl) db.rows
      (fun q => r.path.isPrefixOf q && q.length == r.path.length + cfg.steplen)
    simpa [fixDepthRow] using this

theorem fixedRow_congr {rows rows' : List Row} {f : Row → Row} (hf : ∀ r, (f r).path = r.path)
    (e : rows' = rows.map f) (r : Row) : fixedRow cfg rows' r = fixedRow cfg rows r := by
  subst e
  unfold fixedRow
  rw [filter_paths_length hf rows (fun q => childPath cfg.steplen r.path q)]

theorem inBranch_fixed (rows : List Row) (parent : Option Row) (r : Row) :
    inBranch parent (fixedRow cfg rows r) = inBranch parent r := by
  cases parent <;> rfl

/-- running it again changes nothing, on any table -/
theorem fixTree_idem (cfg : Cfg) (db : DB) (parent : Option Row) :
    (fixTree cfg (fixTree cfg db parent) parent).rows = (fixTree cfg db parent).rows := by
  have hpath : ∀ r, (if inBranch parent r then fixedRow cfg db.rows r else r).path = r.path := by
    intro r; split <;> rfl
  rw [fixTree_rows cfg (fixTree cfg db parent), fixTree_rows cfg db, List.map_map]
  apply List.map_congr_left
  intro r _
  simp only [Function.comp]
  cases h : inBranch parent r with
  | false => simp [h]
  | true =>
    simp only [if_true, inBranch_fixed, h]
    rw [fixedRow_congr hpath rfl]
    rfl

/-- paths well formed, whatever the depths and children counts -/
structure PathsOk (cfg : Cfg) (rows : List Row) : Prop where
  inv : PI cfg rows
  chars : ∀ r ∈ rows, ∀ c ∈ r.path, c ∈ cfg.alphabet
  pos : ∀ r ∈ rows, ∃ n, 1 ≤ n ∧ n < cfg.cap ∧ r.path = pp cfg.steplen r.path ++ stp cfg n

theorem fixTree_inv (hok : cfg.Ok) (h : PathsOk cfg db.rows) : Inv cfg (fixTree cfg db none).rows := by
  have hs := hok.step
  rw [fixTree_rows]
  simp only [inBranch, if_true]
  have hp : PInv cfg (db.rows.map (fixedRow cfg db.rows)) := by
    refine ⟨⟨?_, ?_, ?_, ?_⟩, ?_, ?_, ?_⟩
    · rw [List.map_map]; exact h.inv.pkNodup
    · rw [List.map_map]; exact h.inv.pathNodup
    · intro r hr
      obtain ⟨q, hq, rfl⟩ := List.mem_map.1 hr
      exact h.inv.len q hq
    · intro r hr hl
      obtain ⟨q, hq, rfl⟩ := List.mem_map.1 hr
      obtain ⟨p, hp, e⟩ := h.inv.closed q hq hl
      exact ⟨fixedRow cfg db.rows p, List.mem_map_of_mem hp, e⟩
    · intro r hr
      obtain ⟨q, hq, rfl⟩ := List.mem_map.1 hr
      exact h.chars q hq
    · intro r hr
      obtain ⟨q, hq, rfl⟩ := List.mem_map.1 hr
      exact (Nat.div_mul_cancel (h.inv.len q hq).1).symm
    · intro r hr
      obtain ⟨q, hq, rfl⟩ := List.mem_map.1 hr
      exact h.pos q hq
  refine ⟨hp, ?_⟩
  intro r hr
  rw [length_PF, List.countP_eq_length_filter]
  obtain ⟨q, hq, rfl⟩ := List.mem_map.1 hr
  have e1 : (db.rows.map (fixedRow cfg db.rows)).filter
      (fun x => decide (par cfg (db.rows.map (fixedRow cfg db.rows)) x = some (fixedRow cfg db.rows q).pk)) =
      (db.rows.map (fixedRow cfg db.rows)).filter
      (fun x => childPath cfg.steplen (fixedRow cfg db.rows q).path x.path) := by
    apply List.filter_congr
    intro x hx
    rw [Bool.eq_iff_iff, decide_eq_true_eq, par_eq_some_iff hp.inv hr, childPath_iff]
    exact (split_step (hp.inv.len x hx).2).symm
  rw [e1, filter_paths_length (f := fixedRow cfg db.rows) (fun _ => rfl) db.rows
    (fun p => childPath cfg.steplen (fixedRow cfg db.rows q).path p)]
  rfl

theorem PInv.pathsOk (h : PInv cfg rows) : PathsOk cfg rows := ⟨h.inv, h.chars, h.pos⟩

/-- changes of depth and children counts only leave the described forest as it is -/
theorem PF_same_paths (h : PI cfg rows) {f : Row → Row} (hpk : ∀ r, (f r).pk = r.pk) (hpath : ∀ r, (f r).path = r.path) :
    PF cfg (rows.map f) = PF cfg rows := by
  have h' : PI cfg (rows.map f) := by
    refine ⟨?_, ?_, ?_, ?_⟩
    · rw [List.map_map]; simpa [Function.comp_def, hpk] using h.pkNodup
    · rw [List.map_map]; simpa [Function.comp_def, hpath] using h.pathNodup
    · intro r hr
      obtain ⟨q, hq, rfl⟩ := List.mem_map.1 hr
      rw [hpath]; exact h.len q hq
    · intro r hr hl
      obtain ⟨q, hq, rfl⟩ := List.mem_map.1 hr
      rw [hpath] at hl ⊢
      obtain ⟨p, hp, e⟩ := h.closed q hq hl
      exact ⟨f p, List.mem_map_of_mem hp, by rw [hpath, e]⟩
  refine PF_map_same h h' (fun r _ => hpk r) ?_ ?_
  · intro r hr
    simp only [par, parOf, hpath r]
    exact at?_map (fun r _ => hpk r) (fun r _ => hpath r) _
  · intro a b ha hb _ hab
    simpa [hpath] using hab

end Verif.MP
