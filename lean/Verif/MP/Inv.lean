/-
MP: the invariant and what the query sets return under it.
-/
import Verif.MP.Steps

namespace Verif.MP

variable {cfg : Cfg}

abbrev PI (cfg : Cfg) (rows : List Row) : Prop := PathInv cfg.steplen Row.pk Row.path rows
abbrev PF (cfg : Cfg) (rows : List Row) : Forest := pforest cfg.steplen Row.pk Row.path rows
abbrev par (cfg : Cfg) (rows : List Row) (r : Row) : Option Nat := parOf cfg.steplen Row.pk Row.path rows r
abbrev at? (rows : List Row) (p : List Nat) : Option Nat := pkAt Row.pk Row.path rows p

/-- Consistency of paths and depths: primary keys and paths unique, path lengths are positive multiples of
`steplen`, parents present, characters from the alphabet, depths right, last steps positive. -/
structure PInv (cfg : Cfg) (rows : List Row) : Prop where
  inv : PI cfg rows
  chars : ∀ r ∈ rows, ∀ c ∈ r.path, c ∈ cfg.alphabet
  depth : ∀ r ∈ rows, r.path.length = r.depth * cfg.steplen
  pos : ∀ r ∈ rows, ∃ n, 1 ≤ n ∧ n < cfg.cap ∧ r.path = pp cfg.steplen r.path ++ stp cfg n

/-- children counts are right -/
def NumOk (cfg : Cfg) (rows : List Row) : Prop :=
  ∀ r ∈ rows, r.numchild = ((PF cfg rows (some r.pk)).length : Int)

/-- The invariant of a consistent table. -/
structure Inv (cfg : Cfg) (rows : List Row) : Prop extends PInv cfg rows where
  num : NumOk cfg rows

theorem PInv.depth_pos (h : PInv cfg rows) (hok : cfg.Ok) {r : Row} (hr : r ∈ rows) : 1 ≤ r.depth := by
  have h1 := (h.inv.len r hr).2
  have h2 := h.depth r hr
  have h3 := hok.step
  by_contra hc
  have : r.depth = 0 := by omega
  rw [this] at h2
  omega

theorem PInv.nodup (h : PInv cfg rows) : rows.Nodup := List.Nodup.of_map _ h.inv.pkNodup

theorem PInv.basepath (h : PInv cfg rows) (hok : cfg.Ok) {r : Row} (hr : r ∈ rows) :
    basepath cfg r.path ((r.depth : Int) - 1) = pp cfg.steplen r.path :=
  basepath_parent (h.depth_pos hok hr) (h.depth r hr)

theorem get?_eq_some (h : PI cfg db.rows) {k : Nat} {r : Row} :
    DB.get? db k = some r ↔ r ∈ db.rows ∧ r.pk = k := by
  unfold DB.get?
  constructor
  · intro hf
    exact ⟨List.mem_of_find?_eq_some hf, by simpa using List.find?_some hf⟩
  · rintro ⟨hr, hk⟩
    cases hf : db.rows.find? (·.pk == k) with
    | none => rw [List.find?_eq_none] at hf; exact absurd hk (by simpa using hf r hr)
    | some q =>
      have h1 := List.mem_of_find?_eq_some hf
      have h2 : q.pk = k := by simpa using List.find?_some hf
      rw [h.pk_inj h1 hr (by rw [h2, hk])]

theorem get?_eq_none {db : DB} {k : Nat} : DB.get? db k = none ↔ ∀ r ∈ db.rows, r.pk ≠ k := by
  unfold DB.get?
  rw [List.find?_eq_none]
  simp

/-! ### Ranges -/

/-- the range of children paths selects, among paths one step longer, exactly those below `P` -/
theorem inRange_iff (hok : cfg.Ok) {P : List Nat} {r : Row} (hl : r.path.length = P.length + cfg.steplen)
    (hc : ∀ c ∈ r.path, c ∈ cfg.alphabet) :
    inRange r (childrenInterval cfg P) = true ↔ pp cfg.steplen r.path = P := by
  unfold inRange childrenInterval
  simp only [Bool.and_eq_true, Bool.not_eq_true', decide_eq_false_iff_not]
  rw [pad_eq_stp hok, max_eq_stp hok]
  have hpl : (pp cfg.steplen r.path).length = P.length := by rw [pp_length, hl]; omega
  have hsl : (lastSeg cfg.steplen r.path).length = cfg.steplen := lastSeg_length (by omega)
  have hcap := cap_gt_one hok
  obtain ⟨n, hn, hs⟩ := exists_stp hok hsl (fun c hc' => hc c (List.mem_of_mem_drop hc'))
  conv_lhs => rw [← pp_append_lastSeg (L := cfg.steplen) r.path]
  by_cases he : pp cfg.steplen r.path = P
  · rw [he, hs]
    simp only [iff_true, plt_append_left]
    rw [stp_lt_iff hok hn (by omega), stp_lt_iff hok (by omega) hn]
    omega
  · simp only [he, iff_false]
    rintro ⟨h1, h2⟩
    rw [plt_append_iff hpl he] at h1
    rw [plt_append_iff hpl.symm (Ne.symm he)] at h2
    rcases plt_trichotomy (pp cfg.steplen r.path) P with h | h | h
    · exact h1 h
    · exact he h
    · exact h2 h

theorem depth_eq_iff (h : PInv cfg rows) (hok : cfg.Ok) {r : Row} (hr : r ∈ rows) {d : Nat} :
    r.depth = d ↔ r.path.length = d * cfg.steplen := by
  rw [h.depth r hr]
  have := hok.step
  constructor
  · rintro rfl; rfl
  · intro e; exact Nat.eq_of_mul_eq_mul_right (by omega) e

/-- `get_siblings`: exactly the rows with the same parent path -/
theorem mem_siblings (h : PInv cfg db.rows) (hok : cfg.Ok) {t r : Row} (ht : t ∈ db.rows) :
    r ∈ siblings cfg db t ↔ r ∈ db.rows ∧ pp cfg.steplen r.path = pp cfg.steplen t.path := by
  unfold siblings orderByPath
  rw [mem_sortBy, List.mem_filter]
  refine and_congr_right (fun hr => ?_)
  rw [Bool.and_eq_true, beq_iff_eq, h.basepath hok ht]
  have htl := h.depth t ht
  have hrl := h.depth r hr
  have htp := h.depth_pos hok ht
  have hstep := hok.step
  by_cases hd : t.depth > 1
  · rw [if_pos hd]
    constructor
    · rintro ⟨h1, h2⟩
      have hl : r.path.length = (pp cfg.steplen t.path).length + cfg.steplen := by
        rw [pp_length, hrl, htl, h1]
        have : cfg.steplen ≤ t.depth * cfg.steplen := Nat.le_mul_of_pos_left _ (by omega)
        omega
      exact (inRange_iff hok hl (h.chars r hr)).1 h2
    · intro e
      have h0 := congrArg List.length e
      rw [pp_length, pp_length] at h0
      have h1 := (h.inv.len r hr).2
      have h2 := (h.inv.len t ht).2
      have hl : r.path.length = t.path.length := by omega
      refine ⟨?_, ?_⟩
      · rw [depth_eq_iff h hok hr, hl, htl]
      · exact (inRange_iff hok (by rw [pp_length]; omega) (h.chars r hr)).2 e
  · rw [if_neg hd]
    have ht1 : t.depth = 1 := by omega
    have htl1 : t.path.length = cfg.steplen := by rw [htl, ht1]; omega
    have e0 : pp cfg.steplen t.path = [] := by simp [pp, htl1]
    rw [e0, ht1]
    simp only [and_true]
    rw [depth_eq_iff h hok hr]
    have := (h.inv.len r hr).2
    constructor
    · intro e; simp [pp, e]
    · intro e
      have := congrArg List.length e
      rw [pp_length] at this
      simp only [List.length_nil] at this
      omega

theorem nodup_filter_paths {rows : List Row} (h : (rows.map Row.path).Nodup) (p : Row → Bool) :
    ((rows.filter p).map Row.path).Nodup := h.sublist (List.filter_sublist.map _)

theorem orderByPath_strict {l : List Row} (h : (l.map Row.path).Nodup) :
    (orderByPath l).Pairwise (fun a b => a.path < b.path) := sortPath_strict h

theorem siblings_sorted (h : PInv cfg db.rows) (t : Row) :
    (siblings cfg db t).Pairwise (fun a b => a.path < b.path) :=
  orderByPath_strict (nodup_filter_paths h.inv.pathNodup _)

theorem mem_rootNodes (h : PInv cfg db.rows) (hok : cfg.Ok) {r : Row} :
    r ∈ rootNodes db ↔ r ∈ db.rows ∧ par cfg db.rows r = none := by
  unfold rootNodes orderByPath
  rw [mem_sortBy, List.mem_filter]
  refine and_congr_right (fun hr => ?_)
  rw [beq_iff_eq, depth_eq_iff h hok hr, parOf_eq_none h.inv hok.step hr, Nat.one_mul]

theorem rootNodes_sorted (h : PInv cfg db.rows) : (rootNodes db).Pairwise (fun a b => a.path < b.path) :=
  orderByPath_strict (nodup_filter_paths h.inv.pathNodup _)

/-- the filter of `get_children` -/
theorem mem_childFilter (h : PInv cfg rows) (hok : cfg.Ok) {t r : Row} (ht : t ∈ rows) (hr : r ∈ rows) :
    (r.depth == t.depth + 1 && inRange r (childrenInterval cfg t.path)) = true ↔
      pp cfg.steplen r.path = t.path := by
  rw [Bool.and_eq_true, beq_iff_eq]
  have htl := h.depth t ht
  have hrl := h.depth r hr
  constructor
  · rintro ⟨h1, h2⟩
    have hl : r.path.length = t.path.length + cfg.steplen := by
      rw [hrl, htl, h1, Nat.add_mul, Nat.one_mul]
    exact (inRange_iff hok hl (h.chars r hr)).1 h2
  · intro e
    have h0 := congrArg List.length e
    rw [pp_length] at h0
    have h1 := (h.inv.len r hr).2
    have h2 := (h.inv.len t ht).2
    have hs := hok.step
    have hl : r.path.length = t.path.length + cfg.steplen := by omega
    refine ⟨?_, (inRange_iff hok hl (h.chars r hr)).2 e⟩
    rw [depth_eq_iff h hok hr, hl, htl, Nat.add_mul, Nat.one_mul]

theorem par_eq_some_iff (h : PI cfg rows) {t r : Row} (ht : t ∈ rows) :
    par cfg rows r = some t.pk ↔ pp cfg.steplen r.path = t.path := by
  rw [parOf_eq_some h]
  constructor
  · rintro ⟨q, hq, e, hk⟩
    rw [← e, h.pk_inj hq ht hk]
  · intro e; exact ⟨t, ht, e.symm, rfl⟩

/-- `get_children`: exactly the rows with this parent -/
theorem mem_children (h : Inv cfg db.rows) (hok : cfg.Ok) {t r : Row} (ht : t ∈ db.rows) :
    r ∈ children cfg db t ↔ r ∈ db.rows ∧ pp cfg.steplen r.path = t.path := by
  unfold children
  by_cases hleaf : t.isLeaf = true
  · rw [if_pos hleaf]
    simp only [List.not_mem_nil, false_iff, not_and]
    intro hr e
    have h0 : t.numchild = 0 := by simpa [Row.isLeaf] using hleaf
    have h1 := h.num t ht
    rw [h0] at h1
    have h2 : PF cfg db.rows (some t.pk) = [] := List.length_eq_zero_iff.1 (by omega)
    have : r.pk ∈ PF cfg db.rows (some t.pk) :=
      (mem_pforest h.inv).2 ⟨r, hr, (par_eq_some_iff h.inv ht).2 e, rfl⟩
    rw [h2] at this
    simp at this
  · rw [if_neg hleaf]
    unfold orderByPath
    rw [mem_sortBy, List.mem_filter]
    exact and_congr_right (fun hr => mem_childFilter h.toPInv hok ht hr)

theorem children_sorted (h : PInv cfg db.rows) (t : Row) :
    (children cfg db t).Pairwise (fun a b => a.path < b.path) := by
  unfold children
  split
  · simp
  · exact orderByPath_strict (nodup_filter_paths h.inv.pathNodup _)

/-- The forest as the API shows it: `get_root_nodes` and `get_children` of every stored node. -/
def forest (cfg : Cfg) (db : DB) : Forest := fun p =>
  match p with
  | none => (rootNodes db).map Row.pk
  | some k => match db.get? k with
    | none => []
    | some r => (children cfg db r).map Row.pk

theorem shows_forest (h : Inv cfg db.rows) (hok : cfg.Ok) :
    Shows (forest cfg db) (· ∈ db.rows) Row.pk (par cfg db.rows) (fun a b => a.path < b.path) := by
  constructor
  intro p
  cases p with
  | none => exact ⟨_, rfl, rootNodes_sorted h.toPInv, fun r => mem_rootNodes h.toPInv hok⟩
  | some k =>
    cases hg : db.get? k with
    | none =>
      refine ⟨[], by simp [forest, hg], by simp, ?_⟩
      intro r
      simp only [List.not_mem_nil, false_iff, not_and]
      intro hr e
      obtain ⟨q, hq, _, hk⟩ := (parOf_eq_some h.inv).1 e
      exact get?_eq_none.1 hg q hq hk
    | some t =>
      obtain ⟨ht, rfl⟩ := (get?_eq_some h.inv).1 hg
      refine ⟨children cfg db t, by simp [forest, hg], children_sorted h.toPInv t, ?_⟩
      intro r
      rw [mem_children h hok ht, par_eq_some_iff h.inv ht]

theorem forest_eq (h : Inv cfg db.rows) (hok : cfg.Ok) : forest cfg db = PF cfg db.rows :=
  (shows_forest h hok).unique (shows_pforest h.inv) (asymOn_path _)

/-- first and last elements of sorted query sets -/
theorem getLast?_max {l : List Row} (hs : l.Pairwise (fun a b => a.path < b.path)) {last : Row}
    (hl : l.getLast? = some last) : last ∈ l ∧ ∀ r ∈ l, r ≠ last → r.path < last.path := by
  have hmem := List.mem_of_getLast? hl
  refine ⟨hmem, ?_⟩
  obtain ⟨l', rfl⟩ : ∃ l', l = l' ++ [last] := by
    rw [List.getLast?_eq_some_iff] at hl; exact hl
  intro r hr hne
  rw [List.pairwise_append] at hs
  rcases List.mem_append.1 hr with hr | hr
  · exact hs.2.2 r hr last (by simp)
  · simp at hr; exact absurd hr hne

theorem head?_min {l : List Row} (hs : l.Pairwise (fun a b => a.path < b.path)) {first : Row}
    (hl : l.head? = some first) : first ∈ l ∧ ∀ r ∈ l, r ≠ first → first.path < r.path := by
  cases l with
  | nil => simp at hl
  | cons a l =>
    simp at hl; subst hl
    rw [List.pairwise_cons] at hs
    refine ⟨by simp, ?_⟩
    intro r hr hne
    rcases List.mem_cons.1 hr with rfl | hr
    · exact absurd rfl hne
    · exact hs.1 r hr

end Verif.MP
