/-
LT: the invariant and what the query sets return under it.
-/
import Verif.LT.Labels
import Verif.PathMap

namespace Verif.LT

abbrev PI (rows : List Row) : Prop := PathInv 1 Row.pk Row.path rows
abbrev PF (rows : List Row) : Forest := pforest 1 Row.pk Row.path rows
abbrev par (rows : List Row) (r : Row) : Option Nat := parOf 1 Row.pk Row.path rows r
abbrev at? (rows : List Row) (p : Path) : Option Nat := pkAt Row.pk Row.path rows p

/-- Consistency: primary keys and paths unique, no empty path, parents present, labels over `0-9A-Z`. -/
structure Inv (rows : List Row) : Prop where
  inv : PI rows
  labels : ∀ r ∈ rows, ∀ l ∈ r.path, LabelOk l

variable {db : DB} {rows : List Row}

theorem pp_one (p : Path) : pp 1 p = p.dropLast := by rw [pp, List.dropLast_eq_take]

theorem len_pos (h : PI rows) {r : Row} (hr : r ∈ rows) : 1 ≤ r.path.length := (h.len r hr).2

theorem path_split (h : PI rows) {r : Row} (hr : r ∈ rows) : r.path = r.path.dropLast ++ [lastLabel r.path] := by
  have := len_pos h hr
  have hne : r.path ≠ [] := by intro e; simp [e] at this
  unfold lastLabel
  conv_lhs => rw [← List.dropLast_append_getLast hne]
  rw [List.getLastD_eq_getLast?, List.getLast?_eq_getLast_of_ne_nil hne]; rfl

theorem lastLabel_append (p : Path) (l : Label) : lastLabel (p ++ [l]) = l := by simp [lastLabel]

theorem lastLabel_ok (h : Inv rows) {r : Row} (hr : r ∈ rows) : LabelOk (lastLabel r.path) := by
  refine h.labels r hr _ ?_
  have hm : lastLabel r.path ∈ r.path.dropLast ++ [lastLabel r.path] := by simp
  rwa [← path_split h.inv hr] at hm

/-- siblings compare by their last label -/
theorem label_lt {p q : Path} {a b : Label} (hp : p = q) : p ++ [a] < q ++ [b] ↔ a < b := by
  subst hp
  rw [plt_append_left, List.cons_lt_cons_iff]
  exact ⟨fun h => h.elim id (fun h => absurd h.2 (by simp)), Or.inl⟩

theorem sib_lt (h : PI rows) {r q : Row} (hr : r ∈ rows) (hq : q ∈ rows) (e : r.path.dropLast = q.path.dropLast) :
    r.path < q.path ↔ lastLabel r.path < lastLabel q.path := by
  conv_lhs => rw [path_split h hr, path_split h hq]
  exact label_lt e

theorem get?_eq_some (h : PI db.rows) {k : Nat} {r : Row} : DB.get? db k = some r ↔ r ∈ db.rows ∧ r.pk = k := by
  unfold DB.get?
  constructor
  · intro hf
    exact ⟨List.mem_of_find?_eq_some hf, by simpa using List.find?_some hf⟩
  · rintro ⟨hr, hk⟩
    cases hf : db.rows.find? (·.pk == k) with
    | none => rw [List.find?_eq_none] at hf; exact absurd hk (by simpa using hf r hr)
    | some q =>
      have h1 := List.mem_of_find?_eq_some hf
      have h2 : q.pk = k := by simpa using List.find?_some hf
      rw [h.pk_inj h1 hr (by rw [h2, hk])]

theorem get?_eq_none {k : Nat} : DB.get? db k = none ↔ ∀ r ∈ db.rows, r.pk ≠ k := by
  unfold DB.get?
  rw [List.find?_eq_none]
  simp

theorem mem_orderByPath {l : List Row} {r : Row} : r ∈ orderByPath l ↔ r ∈ l := mem_sortBy

theorem orderByPath_eq (l : List Row) : orderByPath l = sortPath Row.path l := by
  unfold sortPath orderByPath
  congr 1
  funext a b
  congr 1

theorem orderByPath_strict {l : List Row} (h : (l.map Row.path).Nodup) :
    (orderByPath l).Pairwise (fun a b => a.path < b.path) := by
  rw [orderByPath_eq]
  exact sortPath_strict (path := Row.path) h

theorem nodup_filter_paths (h : (rows.map Row.path).Nodup) (q : Row → Bool) : ((rows.filter q).map Row.path).Nodup :=
  h.sublist (List.filter_sublist.map _)

theorem below_sorted (h : PI db.rows) (p : Path) (n : Nat) : (below db p n).Pairwise (fun a b => a.path < b.path) :=
  orderByPath_strict (nodup_filter_paths h.pathNodup _)

theorem prefix_dropLast {p q : Path} (hl : q.length = p.length + 1) : p <+: q ↔ q.dropLast = p := by
  constructor
  · rintro ⟨u, rfl⟩
    rw [List.length_append] at hl
    have : u.length = 1 := by omega
    obtain ⟨a, rfl⟩ := List.length_eq_one_iff.1 this
    simp
  · rintro rfl
    exact List.dropLast_prefix q

theorem mem_below (h : PI db.rows) {p : Path} {r : Row} :
    r ∈ below db p (p.length + 1) ↔ r ∈ db.rows ∧ r.path.dropLast = p := by
  unfold below
  rw [mem_orderByPath, List.mem_filter, Bool.and_eq_true, List.isPrefixOf_iff_prefix, beq_iff_eq]
  constructor
  · rintro ⟨hr, hp, hl⟩; exact ⟨hr, (prefix_dropLast hl).1 hp⟩
  · rintro ⟨hr, e⟩
    have := len_pos h hr
    have hl : r.path.length = p.length + 1 := by rw [← e, List.length_dropLast]; omega
    exact ⟨hr, (prefix_dropLast hl).2 e, hl⟩

theorem siblings_eq (h : PI db.rows) {n : Row} (hn : n ∈ db.rows) :
    siblings db n = below db n.path.dropLast (n.path.dropLast.length + 1) := by
  have := len_pos h hn
  unfold siblings
  rw [List.length_dropLast]
  congr 1
  omega

theorem mem_siblings (h : PI db.rows) {n r : Row} (hn : n ∈ db.rows) :
    r ∈ siblings db n ↔ r ∈ db.rows ∧ r.path.dropLast = n.path.dropLast := by
  rw [siblings_eq h hn, mem_below h]

theorem mem_children (h : PI db.rows) {n r : Row} : r ∈ children db n ↔ r ∈ db.rows ∧ r.path.dropLast = n.path := mem_below h

theorem mem_rootNodes (h : PI db.rows) {r : Row} : r ∈ rootNodes db ↔ r ∈ db.rows ∧ r.path.dropLast = [] := by
  unfold rootNodes
  rw [mem_orderByPath, List.mem_filter, beq_iff_eq]
  refine and_congr_right (fun hr => ?_)
  have := len_pos h hr
  rw [← List.length_eq_zero_iff, List.length_dropLast]
  omega

theorem rootNodes_eq (h : PI db.rows) : rootNodes db = below db [] 1 := by
  refine sorted_unique (T := fun _ => True) (lt := fun a b : Row => a.path < b.path) (fun _ _ _ _ hab => plt_asymm hab)
    (fun _ _ => trivial) (orderByPath_strict (nodup_filter_paths h.pathNodup _)) (below_sorted h _ _) ?_
  intro r
  rw [mem_rootNodes h, show (1 : Nat) = ([] : Path).length + 1 from rfl, mem_below h]

theorem par_eq_some (h : PI rows) {r t : Row} (ht : t ∈ rows) : par rows r = some t.pk ↔ r.path.dropLast = t.path := by
  rw [parOf_eq_some h]
  constructor
  · rintro ⟨q, hq, e, hk⟩
    rw [← h.pk_inj hq ht hk, e, pp_one]
  · intro e
    exact ⟨t, ht, by rw [pp_one, e], rfl⟩

theorem par_eq_none (h : PI rows) {r : Row} (hr : r ∈ rows) : par rows r = none ↔ r.path.dropLast = [] := by
  rw [parOf_eq_none h (by omega) hr, ← List.length_eq_zero_iff, List.length_dropLast]
  have := len_pos h hr
  omega

/-- The forest as the API shows it: `get_root_nodes` and `get_children` of every stored node. -/
def forest (db : DB) : Forest := fun p =>
  match p with
  | none => (rootNodes db).map Row.pk
  | some k => match db.get? k with
    | none => []
    | some r => (children db r).map Row.pk

theorem shows_forest (h : PI db.rows) :
    Shows (forest db) (· ∈ db.rows) Row.pk (par db.rows) (fun a b => a.path < b.path) := by
  constructor
  intro p
  cases p with
  | none =>
    refine ⟨_, rfl, orderByPath_strict (nodup_filter_paths h.pathNodup _), fun r => ?_⟩
    rw [mem_rootNodes h]
    exact and_congr_right (fun hr => (par_eq_none h hr).symm)
  | some k =>
    cases hg : db.get? k with
    | none =>
      refine ⟨[], by simp [forest, hg], by simp, ?_⟩
      intro r
      simp only [List.not_mem_nil, false_iff, not_and]
      intro hr e
      obtain ⟨q, hq, _, hk⟩ := (parOf_eq_some h).1 e
      exact get?_eq_none.1 hg q hq hk
    | some t =>
      obtain ⟨ht, rfl⟩ := (get?_eq_some h).1 hg
      refine ⟨children db t, by simp [forest, hg], below_sorted h _ _, ?_⟩
      intro r
      rw [mem_children h]
      exact and_congr_right (fun hr => (par_eq_some h ht).symm)

theorem forest_eq (h : PI db.rows) : forest db = PF db.rows :=
  (shows_forest h).unique (shows_pforest h) (asymOn_path _)

/-- first and last elements of sorted query sets -/
theorem getLast?_max {l : List Row} (hs : l.Pairwise (fun a b => a.path < b.path)) {last : Row}
    (hl : l.getLast? = some last) : last ∈ l ∧ ∀ r ∈ l, ¬ last.path < r.path := by
  have hmem := List.mem_of_getLast? hl
  refine ⟨hmem, ?_⟩
  obtain ⟨l', rfl⟩ : ∃ l', l = l' ++ [last] := by
    rw [List.getLast?_eq_some_iff] at hl; exact hl
  intro r hr
  rw [List.pairwise_append] at hs
  rcases List.mem_append.1 hr with hr | hr
  · exact plt_asymm (hs.2.2 r hr last (by simp))
  · simp at hr; subst hr; exact plt_irrefl _

theorem head?_min {l : List Row} (hs : l.Pairwise (fun a b => a.path < b.path)) {first : Row}
    (hl : l.head? = some first) : first ∈ l ∧ ∀ r ∈ l, ¬ r.path < first.path := by
  cases l with
  | nil => simp at hl
  | cons a l =>
    simp at hl; subst hl
    rw [List.pairwise_cons] at hs
    refine ⟨by simp, ?_⟩
    intro r hr
    rcases List.mem_cons.1 hr with rfl | hr
    · exact plt_irrefl _
    · exact plt_asymm (hs.1 r hr)

end Verif.LT
