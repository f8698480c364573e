/-
LT: `_move_subtree_right`.
-/
import Verif.LT.Inv

namespace Verif.LT

variable {db : DB} {rows : List Row}

/-- the new path of a row at `p` when the siblings from `pre ++ [a]` on are moved right -/
def sh (pre : Path) (a : Label) (p : Path) : Path :=
  match p.drop pre.length with
  | [] => p
  | l :: u => if pre.isPrefixOf p && !decide (l < a) then pre ++ (l ++ [65]) :: u else p

theorem sh_moved {pre : Path} {a l : Label} {u : Path} (h : ¬ l < a) : sh pre a (pre ++ l :: u) = pre ++ (l ++ [65]) :: u := by
  unfold sh
  rw [List.drop_left]
  simp only
  rw [if_pos]
  simp only [Bool.and_eq_true, List.isPrefixOf_iff_prefix, Bool.not_eq_true', decide_eq_false_iff_not]
  exact ⟨List.prefix_append _ _, h⟩

theorem sh_kept {pre : Path} {a : Label} {p : Path} (h : ∀ l u, p = pre ++ l :: u → l < a) : sh pre a p = p := by
  unfold sh
  split
  · rfl
  · rename_i l u e
    split
    · rename_i hc
      simp only [Bool.and_eq_true, List.isPrefixOf_iff_prefix, Bool.not_eq_true', decide_eq_false_iff_not] at hc
      obtain ⟨v, rfl⟩ := hc.1
      rw [List.drop_left] at e
      subst e
      exact absurd (h l u rfl) hc.2
    · rfl

theorem sh_cases (pre : Path) (a : Label) (p : Path) :
    (∃ l u, p = pre ++ l :: u ∧ ¬ l < a ∧ sh pre a p = pre ++ (l ++ [65]) :: u) ∨
    ((∀ l u, p = pre ++ l :: u → l < a) ∧ sh pre a p = p) := by
  by_cases h : ∃ l u, p = pre ++ l :: u ∧ ¬ l < a
  · obtain ⟨l, u, rfl, h⟩ := h
    exact Or.inl ⟨l, u, rfl, h, sh_moved h⟩
  · right
    have h' : ∀ l u, p = pre ++ l :: u → l < a := by
      intro l u e
      by_contra hc
      exact h ⟨l, u, e, hc⟩
    exact ⟨h', sh_kept h'⟩

theorem label_le_snoc {a l : Label} (h : ¬ l < a) (c : Nat) : ¬ l ++ [c] < a := by
  intro h'
  exact h (plt_trans (lt_snoc l c) h')

theorem sh_inj (pre : Path) (a : Label) (p q : Path) (e : sh pre a p = sh pre a q) : p = q := by
  rcases sh_cases pre a p with ⟨l, u, rfl, hl, hp⟩ | ⟨hp', hp⟩ <;> rcases sh_cases pre a q with ⟨m, v, rfl, hm, hq⟩ | ⟨hq', hq⟩
  · rw [hp, hq] at e
    have e := List.append_cancel_left e
    rw [List.cons.injEq] at e
    rw [List.append_cancel_right e.1, e.2]
  · rw [hp, hq] at e
    exact absurd (hq' _ _ e.symm) (label_le_snoc hl 65)
  · rw [hp, hq] at e
    exact absurd (hp' _ _ e) (label_le_snoc hm 65)
  · rw [hp, hq] at e
    exact e

theorem sh_pp (pre : Path) (a : Label) (p : Path) : pp 1 (sh pre a p) = sh pre a (pp 1 p) := by
  rw [pp_one, pp_one]
  rcases sh_cases pre a p with ⟨l, u, rfl, hl, hp⟩ | ⟨hp', hp⟩
  · rw [hp]
    rcases List.eq_nil_or_concat' u with rfl | ⟨u', x, rfl⟩
    · rw [show pre ++ [l ++ [65]] = pre ++ [l ++ [65]] from rfl, List.dropLast_concat, List.dropLast_concat, sh_kept]
      intro m v e
      have := congrArg List.length e
      simp at this
    · rw [show pre ++ (l ++ [65]) :: (u' ++ [x]) = (pre ++ (l ++ [65]) :: u') ++ [x] by simp,
        show pre ++ l :: (u' ++ [x]) = (pre ++ l :: u') ++ [x] by simp, List.dropLast_concat, List.dropLast_concat, sh_moved hl]
  · rw [hp]
    symm
    apply sh_kept
    intro l u e
    rcases List.eq_nil_or_concat' p with rfl | ⟨p', x, rfl⟩
    · simp at e
    · rw [List.dropLast_concat] at e
      subst e
      exact hp' l (u ++ [x]) (by simp)

theorem sh_len (pre : Path) (a : Label) (p : Path) : (sh pre a p).length = p.length := by
  rcases sh_cases pre a p with ⟨l, u, rfl, hl, hp⟩ | ⟨hp', hp⟩ <;> rw [hp]
  simp

theorem pathMap_sh (pre : Path) (a : Label) : PathMap 1 (sh pre a) := ⟨sh_inj pre a, fun p _ => sh_pp pre a p, sh_len pre a⟩

/-- the row with its path shifted -/
def shRow (pre : Path) (a : Label) (r : Row) : Row := { r with path := sh pre a r.path }

theorem cons_lt_singleton {l a : Label} {u : Path} : l :: u < [a] ↔ l < a := by
  rw [List.cons_lt_cons_iff]
  exact ⟨fun h => h.elim id (fun h => absurd h.2 (by simp)), Or.inl⟩

theorem rightOf_iff {pre : Path} {a : Label} {r : Row} (hl : pre.length + 1 ≤ r.path.length) :
    rightOf (pre ++ [a]) r = true ↔ ∃ l u, r.path = pre ++ l :: u ∧ ¬ l < a := by
  unfold rightOf
  rw [Bool.and_eq_true, Bool.not_eq_true', decide_eq_false_iff_not]
  have hpre : ((if (pre ++ [a]).length > 1 then (pre ++ [a]).dropLast.isPrefixOf r.path else true) = true) ↔ pre <+: r.path := by
    rw [List.dropLast_concat]
    split
    · rw [List.isPrefixOf_iff_prefix]
    · rename_i h
      have : pre = [] := by simpa using h
      subst this
      simp
  rw [hpre]
  constructor
  · rintro ⟨⟨v, e⟩, h2⟩
    cases v with
    | nil => rw [List.append_nil] at e; rw [← e] at hl; omega
    | cons l u =>
      refine ⟨l, u, e.symm, ?_⟩
      rw [← e, plt_append_left, cons_lt_singleton] at h2
      exact h2
  · rintro ⟨l, u, e, h⟩
    rw [e]
    refine ⟨List.prefix_append _ _, ?_⟩
    rw [plt_append_left, cons_lt_singleton]
    exact h

theorem appendA_eq {pre : Path} {a l : Label} {u : Path} : appendA (pre ++ [a]).length (pre ++ l :: u) = pre ++ (l ++ [65]) :: u := by
  unfold appendA
  have : (pre ++ [a]).length - 1 = pre.length := by simp
  rw [this, List.drop_left]
  simp

/-- the two UPDATEs together -/
theorem shift_rows (pre : Path) (a : Label) (rows : List Row) :
    shiftDeep (pre ++ [a]) (shiftTop (pre ++ [a]) rows) = rows.map (shRow pre a) := by
  unfold shiftDeep shiftTop
  rw [List.map_map]
  refine List.map_congr_left (fun r _ => ?_)
  rw [Function.comp_apply]
  have hlen : (pre ++ [a]).length = pre.length + 1 := by simp
  have keep : rightOf (pre ++ [a]) r = false → pre.length + 1 ≤ r.path.length → shRow pre a r = r := by
    intro h1 hl
    unfold shRow
    rw [sh_kept]
    intro l u e
    by_contra hla
    rw [(rightOf_iff hl).2 ⟨l, u, e, hla⟩] at h1
    simp at h1
  rcases Nat.lt_trichotomy r.path.length (pre ++ [a]).length with hl | hl | hl
  · -- too short
    have h1 : (r.path.length == (pre ++ [a]).length) = false := by rw [beq_eq_false_iff_ne]; omega
    have h2 : decide ((pre ++ [a]).length < r.path.length) = false := by rw [decide_eq_false_iff_not]; omega
    rw [h1, Bool.and_false, if_neg Bool.false_ne_true, h2, Bool.and_false, if_neg Bool.false_ne_true]
    unfold shRow
    rw [sh_kept]
    intro l u e
    rw [e] at hl
    simp at hl
  · -- a sibling
    cases h1 : rightOf (pre ++ [a]) r with
    | true =>
      obtain ⟨l, u, e, hla⟩ := (rightOf_iff (by omega)).1 h1
      have h3 : (r.path.length == (pre ++ [a]).length) = true := by rw [beq_iff_eq]; omega
      have h2 : decide ((pre ++ [a]).length < (appendA (pre ++ [a]).length r.path).length) = false := by
        rw [decide_eq_false_iff_not, e, appendA_eq, ← hl, e]; simp
      rw [h3, Bool.and_self, if_pos rfl, h2, Bool.and_false, if_neg Bool.false_ne_true]
      unfold shRow
      rw [e, sh_moved hla, appendA_eq]
    | false =>
      rw [Bool.false_and, if_neg Bool.false_ne_true, h1, Bool.false_and, if_neg Bool.false_ne_true, keep h1 (by omega)]
  · -- below a sibling
    have h3 : (r.path.length == (pre ++ [a]).length) = false := by rw [beq_eq_false_iff_ne]; omega
    rw [h3, Bool.and_false, if_neg Bool.false_ne_true]
    cases h1 : rightOf (pre ++ [a]) r with
    | true =>
      obtain ⟨l, u, e, hla⟩ := (rightOf_iff (by omega)).1 h1
      have h2 : decide ((pre ++ [a]).length < r.path.length) = true := by rw [decide_eq_true_eq]; omega
      rw [h2, Bool.and_self, if_pos rfl]
      unfold shRow
      rw [e, sh_moved hla, appendA_eq]
    | false => rw [Bool.false_and, if_neg Bool.false_ne_true, keep h1 (by omega)]

theorem moveRight_rows {b : Row} {pre : Path} {a : Label} (hb : b.path = pre ++ [a]) :
    (moveRight db b).rows = db.rows.map (shRow pre a) := by
  unfold moveRight
  simp only
  rw [hb, shift_rows]

theorem labelOk_snoc {l : Label} (h : LabelOk l) : LabelOk (l ++ [65]) := by
  refine ⟨by simp, ?_⟩
  intro c hc
  rcases List.mem_append.1 hc with hc | hc
  · exact h.2 c hc
  · simp only [List.mem_singleton] at hc
    subst hc
    decide

/-- **Moving right keeps the table consistent.** -/
theorem shift_inv (h : Inv rows) (pre : Path) (a : Label) : Inv (rows.map (shRow pre a)) := by
  refine ⟨map_inv h.inv (pathMap_sh pre a) (fun _ _ => rfl) (fun _ _ => rfl), ?_⟩
  intro r' hr' l hl
  obtain ⟨r, hr, rfl⟩ := List.mem_map.1 hr'
  show LabelOk l
  have hl : l ∈ sh pre a r.path := hl
  rcases sh_cases pre a r.path with ⟨m, u, e, hm, hp⟩ | ⟨_, hp⟩
  · rw [hp] at hl
    have hsub := h.labels r hr
    rw [e] at hsub
    rcases List.mem_append.1 hl with hl | hl
    · exact hsub l (by simp [hl])
    · rcases List.mem_cons.1 hl with rfl | hl
      · exact labelOk_snoc (hsub m (by simp))
      · exact hsub l (by simp [hl])
  · rw [hp] at hl
    exact h.labels r hr l hl

/-- Appending "A" to two labels keeps their order unless the first is continued by a digit in the second. -/
theorem snoc_lt {l m : Label} (h : l < m) (hd : ¬ ∃ c t, c < 65 ∧ m = l ++ c :: t) : l ++ [65] < m ++ [65] := by
  induction l generalizing m with
  | nil =>
    cases m with
    | nil => simp at h
    | cons c m =>
      have hc : ¬ c < 65 := fun hc => hd ⟨c, m, hc, rfl⟩
      rw [List.nil_append, List.cons_append, List.cons_lt_cons_iff]
      rcases Nat.lt_or_ge 65 c with h' | h'
      · exact Or.inl h'
      · refine Or.inr ⟨by omega, ?_⟩
        cases m <;> simp
  | cons x l ih =>
    cases m with
    | nil => simp at h
    | cons c m =>
      rw [List.cons_append, List.cons_append, List.cons_lt_cons_iff]
      rw [List.cons_lt_cons_iff] at h
      rcases h with h | ⟨rfl, h⟩
      · exact Or.inl h
      · refine Or.inr ⟨rfl, ih h ?_⟩
        rintro ⟨d, t, hdl, e⟩
        exact hd ⟨d, t, hdl, by rw [e]; rfl⟩

/-- No label of a sibling right of `pre ++ [a]` (or of it) is the label of another one continued by a digit. -/
def NoDigitExt (rows : List Row) (pre : Path) (a : Label) : Prop :=
  ∀ r ∈ rows, ∀ q ∈ rows, r.path.dropLast = pre → q.path.dropLast = pre → ¬ lastLabel r.path < a →
    ∀ c t, lastLabel q.path = lastLabel r.path ++ c :: t → 65 ≤ c

/-- Moving right keeps the order of two siblings, unless both are moved and the second has the label of the first
continued by a digit. -/
theorem sh_lt (h : PI rows) {pre : Path} {a : Label} {r q : Row} (hr : r ∈ rows) (hq : q ∈ rows)
    (hpp : r.path.dropLast = q.path.dropLast) (hlt : r.path < q.path)
    (hok : r.path.dropLast = pre → lastLabel r.path < a ∨ ∀ c t, lastLabel q.path = lastLabel r.path ++ c :: t → 65 ≤ c) :
    sh pre a r.path < sh pre a q.path := by
  rcases sh_cases pre a r.path with ⟨l, u, e, hl, hp⟩ | ⟨hp', hp⟩
  · rcases List.eq_nil_or_concat' u with rfl | ⟨u', x, rfl⟩
    · have hpre : r.path.dropLast = pre := by rw [e, List.dropLast_concat]
      have hq1 := path_split h hq
      rw [← hpp, hpre] at hq1
      have hll : lastLabel r.path = l := by rw [e, lastLabel_append]
      rw [e, hq1] at hlt
      have hlm := (label_lt rfl).1 hlt
      have hm : ¬ lastLabel q.path < a := fun hma => hl (plt_trans hlm hma)
      rw [hp, hq1, sh_moved hm]
      refine (label_lt rfl).2 (snoc_lt hlm ?_)
      rintro ⟨c, t, hc, ec⟩
      rcases hok hpre with h1 | h1
      · exact hl (hll ▸ h1)
      · have := h1 c t (by rw [hll]; exact ec)
        omega
    · have hpre : r.path.dropLast = pre ++ l :: u' := by
        rw [e, show pre ++ l :: (u' ++ [x]) = (pre ++ l :: u') ++ [x] by simp, List.dropLast_concat]
      have hq1 := path_split h hq
      rw [← hpp, hpre] at hq1
      rw [e, hq1, List.append_assoc, plt_append_left, List.cons_append, List.cons_lt_cons_iff] at hlt
      rw [hp, hq1, List.append_assoc, List.cons_append, sh_moved hl, plt_append_left, List.cons_lt_cons_iff]
      rcases hlt with hlt | hlt
      · exact absurd hlt (plt_irrefl l)
      · exact Or.inr ⟨rfl, hlt.2⟩
  · rw [hp]
    rcases sh_cases pre a q.path with ⟨m, v, e, hm, hq'⟩ | ⟨_, hq'⟩
    · rcases List.eq_nil_or_concat' v with rfl | ⟨v', x, rfl⟩
      · rw [hq']
        refine plt_trans hlt ?_
        rw [e]
        exact (label_lt rfl).2 (lt_snoc m 65)
      · exfalso
        have hpre : q.path.dropLast = pre ++ m :: v' := by
          rw [e, show pre ++ m :: (v' ++ [x]) = (pre ++ m :: v') ++ [x] by simp, List.dropLast_concat]
        have hr1 := path_split h hr
        rw [hpp, hpre] at hr1
        exact hm (hp' m (v' ++ [lastLabel r.path]) (hr1.trans (by simp)))
    · rw [hq']; exact hlt

/-- **Under this condition moving right keeps the tree.** -/
theorem shift_forest (h : Inv rows) {pre : Path} {a : Label} (hn : NoDigitExt rows pre a) :
    PF (rows.map (shRow pre a)) = PF rows := by
  refine map_forest h.inv (pathMap_sh pre a) (fun _ _ => rfl) (fun _ _ => rfl) ?_ (by omega)
  intro r hr q hq hpp hlt
  rw [pp_one, pp_one] at hpp
  refine sh_lt h.inv hr hq hpp hlt ?_
  intro hpre
  by_cases hl : lastLabel r.path < a
  · exact Or.inl hl
  · exact Or.inr (hn r hr q hq hpre (hpp ▸ hpre) hl)

/-- Whatever the labels, moving right changes no parent. -/
theorem shift_mem (h : Inv rows) (pre : Path) (a : Label) {k : Nat} {p : Option Nat} :
    k ∈ PF (rows.map (shRow pre a)) p ↔ k ∈ PF rows p :=
  map_mem (f := shRow pre a) h.inv (pathMap_sh pre a) (fun _ _ => rfl) (fun _ _ => rfl)

theorem shift_par (h : Inv rows) (pre : Path) (a : Label) {r : Row} (hr : r ∈ rows) :
    par (rows.map (shRow pre a)) (shRow pre a r) = par rows r :=
  map_parOf (f := shRow pre a) h.inv (pathMap_sh pre a) (fun _ _ => rfl) (fun _ _ => rfl) hr

theorem shift_at (h : Inv rows) (pre : Path) (a : Label) (p : Path) :
    at? (rows.map (shRow pre a)) (sh pre a p) = at? rows p :=
  map_pkAt (f := shRow pre a) h.inv (pathMap_sh pre a) (fun _ _ => rfl) (fun _ _ => rfl) p

theorem sh_self (pre : Path) (a : Label) : sh pre a pre = pre := by
  apply sh_kept
  intro l u e
  have := congrArg List.length e
  simp at this

end Verif.LT
