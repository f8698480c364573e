/-
LT: deleting.
-/
import Verif.LT.Add

namespace Verif.LT

variable {db : DB} {rows : List Row} {sel : Row → Bool}

theorem take_pre {a b : Path} (h : a <+: b) : a = b.take a.length := List.prefix_iff_eq_take.1 h

theorem found_iff (h : PI rows) {n : Row} {removed : List Path}
    (hsub : ∀ q ∈ removed, ∃ r ∈ rows, r.path = q) :
    ((List.range n.path.length).any (fun d => decide (1 ≤ d) && removed.contains (n.path.take d))) = true ↔
    ∃ q ∈ removed, q <+: n.path ∧ q ≠ n.path := by
  rw [List.any_eq_true]
  constructor
  · rintro ⟨d, hd, hx⟩
    rw [List.mem_range] at hd
    rw [Bool.and_eq_true, List.contains_iff_mem] at hx
    refine ⟨_, hx.2, List.take_prefix _ _, ?_⟩
    intro e
    have := congrArg List.length e
    rw [List.length_take] at this
    omega
  · rintro ⟨q, hq, hp, hne⟩
    obtain ⟨r, hr, rfl⟩ := hsub q hq
    refine ⟨r.path.length, ?_, ?_⟩
    · rw [List.mem_range]
      have := hp.length_le
      have : r.path.length ≠ n.path.length := fun e => hne (hp.eq_of_length e)
      omega
    · rw [Bool.and_eq_true, List.contains_iff_mem, decide_eq_true_iff]
      refine ⟨len_pos h hr, ?_⟩
      rw [← take_pre hp]
      exact hq

/-- What `paths_to_remove` is: the paths of selected nodes, one above (or equal to) every selected node, none above another. -/
structure Removed (rows : List Row) (sel : Row → Bool) (R : List Path) : Prop where
  sub : ∀ p ∈ R, ∃ n ∈ rows, sel n = true ∧ n.path = p
  cover : ∀ n ∈ rows, sel n = true → ∃ p ∈ R, p <+: n.path
  anti : ∀ a ∈ R, ∀ b ∈ R, a <+: b → a = b
  nodup : R.Nodup

theorem removedLoop_spec (h : PI rows) : ∀ (l : List Row) (removed : List Path),
    (∀ n ∈ l, n ∈ rows) → (∀ q ∈ removed, ∃ r ∈ rows, r.path = q) →
    (removed ++ l.map Row.path).Pairwise (fun a b => a < b) →
    (∀ a ∈ removed, ∀ b ∈ removed, a <+: b → a = b) →
    (∀ p ∈ removedLoop l removed, p ∈ removed ++ l.map Row.path) ∧
    (∀ p ∈ removed ++ l.map Row.path, ∃ q ∈ removedLoop l removed, q <+: p) ∧
    (∀ a ∈ removedLoop l removed, ∀ b ∈ removedLoop l removed, a <+: b → a = b) ∧
    (removedLoop l removed).Pairwise (fun a b => a < b) := by
  intro l
  induction l with
  | nil =>
    intro removed _ _ hnd hanti
    simp only [List.map_nil, List.append_nil, removedLoop] at *
    exact ⟨fun _ hn => hn, fun n hn => ⟨n, hn, List.prefix_refl _⟩, hanti, hnd⟩
  | cons n l ih =>
    intro removed hl hsub hsort hanti
    have hnr := hl n (by simp)
    have hfi := found_iff h (n := n) hsub
    rw [List.map_cons] at hsort ⊢
    simp only [removedLoop]
    split
    · rename_i hf
      obtain ⟨q, hq, hp, _⟩ := hfi.1 hf
      have hsl : (removed ++ l.map Row.path).Sublist (removed ++ n.path :: l.map Row.path) :=
        List.Sublist.append_left (List.sublist_cons_self _ _) _
      obtain ⟨h1, h2, h3, h4⟩ := ih removed (fun m hm => hl m (List.mem_cons_of_mem _ hm)) hsub (hsort.sublist hsl) hanti
      refine ⟨fun m hm => hsl.subset (h1 m hm), ?_, h3, h4⟩
      intro m hm
      rcases List.mem_append.1 hm with hm | hm
      · exact h2 m (List.mem_append_left _ hm)
      · rcases List.mem_cons.1 hm with rfl | hm
        · obtain ⟨q', hq', hp'⟩ := h2 q (List.mem_append_left _ hq)
          exact ⟨q', hq', hp'.trans hp⟩
        · exact h2 m (List.mem_append_right _ hm)
    · rename_i hf
      have e : removed ++ n.path :: l.map Row.path = (removed ++ [n.path]) ++ l.map Row.path := by simp
      rw [e] at hsort ⊢
      refine ih (removed ++ [n.path]) (fun m hm => hl m (List.mem_cons_of_mem _ hm)) ?_ hsort ?_
      · intro q hq
        rcases List.mem_append.1 hq with hq | hq
        · exact hsub q hq
        · rw [List.mem_singleton] at hq; exact ⟨n, hnr, hq.symm⟩
      · intro a ha b hb hab
        have hs := (List.pairwise_append.1 hsort).1
        rw [List.mem_append, List.mem_singleton] at ha hb
        rcases ha with ha | rfl
        · rcases hb with hb | rfl
          · exact hanti a ha b hb hab
          · by_contra hne
            exact hf (hfi.2 ⟨a, ha, hab, hne⟩)
        · rcases hb with hb | rfl
          · have hlt : b < n.path := (List.pairwise_append.1 hs).2.2 b hb n.path (by simp)
            by_contra hne
            exact plt_asymm hlt (plt_prefix hab hne)
          · rfl

theorem removed_spec (h : PI rows) (sel : Row → Bool) :
    Removed rows sel (removedLoop (orderByPath (rows.filter sel)) []) := by
  have hmem : ∀ n, n ∈ orderByPath (rows.filter sel) ↔ n ∈ rows ∧ sel n = true := by
    intro n; rw [mem_orderByPath, List.mem_filter]
  obtain ⟨h1, h2, h3, h4⟩ := removedLoop_spec h (orderByPath (rows.filter sel)) []
    (fun n hn => ((hmem n).1 hn).1) (by simp)
    (by
      rw [List.nil_append, List.pairwise_map]
      exact orderByPath_strict (nodup_filter_paths h.pathNodup _)) (by simp)
  refine ⟨?_, ?_, h3, ?_⟩
  · intro p hp
    have := h1 p hp
    rw [List.nil_append, List.mem_map] at this
    obtain ⟨n, hn, e⟩ := this
    exact ⟨n, ((hmem n).1 hn).1, ((hmem n).1 hn).2, e⟩
  · intro n hn hs
    refine h2 n.path ?_
    rw [List.nil_append, List.mem_map]
    exact ⟨n, (hmem n).2 ⟨hn, hs⟩, rfl⟩
  · rw [List.nodup_iff_pairwise_ne]
    refine h4.imp ?_
    rintro a b hab rfl
    exact plt_irrefl _ hab

/-- the rows a deletion removes: those with a selected row at or above -/
def doomed (rows : List Row) (sel : Row → Bool) (r : Row) : Bool :=
  rows.any (fun q => sel q && q.path.isPrefixOf r.path)

theorem doomed_iff {r : Row} : doomed rows sel r = true ↔ ∃ q ∈ rows, sel q = true ∧ q.path <+: r.path := by
  simp [doomed]

theorem Removed.doomed_iff {R : List Path} (hR : Removed rows sel R) {r : Row} :
    doomed rows sel r = true ↔ ∃ p ∈ R, p <+: r.path := by
  rw [LT.doomed_iff]
  constructor
  · rintro ⟨q, hq, hs, hp⟩
    obtain ⟨n, hn, hp'⟩ := hR.cover q hq hs
    exact ⟨n, hn, hp'.trans hp⟩
  · rintro ⟨p, hp, hpr⟩
    obtain ⟨n, hn, hs, rfl⟩ := hR.sub p hp
    exact ⟨n, hn, hs, hpr⟩

/-- the keys of the doomed rows -/
def doomedPk (rows : List Row) (sel : Row → Bool) (k : Nat) : Bool :=
  rows.any (fun r => r.pk == k && doomed rows sel r)

theorem doomedPk_iff {k : Nat} : doomedPk rows sel k = true ↔ ∃ r ∈ rows, r.pk = k ∧ doomed rows sel r = true := by
  simp [doomedPk]

theorem doomed_closed (rows : List Row) (sel : Row → Bool) : ∀ r ∈ rows, ∀ q ∈ rows,
    q.path = pp 1 r.path → (!doomed rows sel r) = true → (!doomed rows sel q) = true := by
  intro r _ q _ e hk
  rw [Bool.not_eq_true', Bool.eq_false_iff] at hk ⊢
  intro hd
  obtain ⟨n, hn, hs, hp⟩ := doomed_iff.1 hd
  exact hk (doomed_iff.2 ⟨n, hn, hs, hp.trans (e ▸ pp_prefix _)⟩)

theorem doomedPk_pk (h : PI rows) (sel : Row → Bool) {r : Row} (hr : r ∈ rows) :
    doomedPk rows sel r.pk = doomed rows sel r := by
  rw [Bool.eq_iff_iff, doomedPk_iff]
  constructor
  · rintro ⟨q, hq, e, hd⟩; rwa [← h.pk_inj hq hr e]
  · intro hd; exact ⟨r, hr, rfl, hd⟩

/-- What `delete` does to a consistent table. -/
structure Deleted (db db' : DB) (sel : Row → Bool) : Prop where
  inv : Inv db'.rows
  forest : PF db'.rows = (PF db.rows).prune (doomedPk db.rows sel)
  rows : db'.rows = db.rows.filter (fun r => !doomed db.rows sel r)

theorem delete_rows (h : PI db.rows) (sel : Row → Bool) :
    (delete db sel).rows = db.rows.filter (fun r => !doomed db.rows sel r) := by
  have hR := removed_spec h sel
  unfold delete
  simp only
  split
  · rename_i he
    rw [List.isEmpty_iff] at he
    symm
    rw [List.filter_eq_self]
    intro r _
    rw [Bool.not_eq_true', Bool.eq_false_iff]
    intro hd
    obtain ⟨p, hp, _⟩ := hR.doomed_iff.1 hd
    rw [he] at hp
    exact absurd hp (by simp)
  · simp only
    apply List.filter_congr
    intro r _
    congr 1
    rw [Bool.eq_iff_iff, hR.doomed_iff, List.any_eq_true]
    simp only [List.isPrefixOf_iff_prefix]

theorem delete_spec (h : Inv db.rows) (sel : Row → Bool) : Deleted db (delete db sel) sel := by
  have e := delete_rows h.inv sel
  refine ⟨?_, ?_, e⟩
  · rw [e]
    exact ⟨del_inv h.inv (doomed_closed db.rows sel), fun r hr => h.labels r (List.mem_filter.1 hr).1⟩
  · rw [e]
    refine del_prune h.inv (doomed_closed db.rows sel) ?_ (shows_pforest h.inv)
      (shows_pforest (del_inv h.inv (doomed_closed db.rows sel)))
    intro r hr
    rw [doomedPk_pk h.inv sel hr, Bool.not_not]

/-- the signal of a deletion -/
theorem delete_sigs (h : PI db.rows) (sel : Row → Bool) : ∃ R, Removed db.rows sel R ∧
    (delete db sel).sigs = if R = [] then db.sigs else db.sigs ++ [.nodesDeleted R] := by
  refine ⟨_, removed_spec h sel, ?_⟩
  unfold delete
  simp only [List.isEmpty_iff]
  split <;> rfl

end Verif.LT
