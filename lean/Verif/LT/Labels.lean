/-
LT: the generated labels.
-/
import Verif.LT.Model

namespace Verif.LT

/-- the characters `0-9A-Z` -/
def allChars : List Nat := digits ++ upper

/-- a label `generate_label` works with: not empty, over `0-9A-Z` -/
def LabelOk (l : Label) : Prop := l ≠ [] ∧ ∀ c ∈ l, c ∈ allChars

theorem allChars_ge {c : Nat} (h : c ∈ allChars) : 48 ≤ c := by
  have : ∀ c ∈ allChars, 48 ≤ c := by decide
  exact this c h

theorem upper_sub {c : Nat} (h : c ∈ upper) : c ∈ allChars := List.mem_append_right _ h

theorem charChoices_sub (before after : Option Label) {c : Nat} (h : c ∈ charChoices before after) : c ∈ allChars := by
  unfold charChoices at h
  split at h
  · exact upper_sub h
  · exact h

theorem charChoices_ne (before after : Option Label) : charChoices before after ≠ [] := by
  unfold charChoices
  split <;> decide

theorem truthy_some {l : Label} : truthy (some l) = true ↔ l ≠ [] := by
  cases l <;> simp [truthy]

theorem truthy_none : truthy none = false := rfl

/-! ### What is returned -/

theorem mem_product {ls : List (List Nat)} {l : Label} (h : l ∈ product ls) :
    l.length = ls.length ∧ ∀ c ∈ l, ∃ m ∈ ls, c ∈ m := by
  induction ls generalizing l with
  | nil => simp [product] at h; subst h; simp
  | cons a ls ih =>
    simp only [product, List.mem_flatMap, List.mem_map] at h
    obtain ⟨c, hc, t, ht, rfl⟩ := h
    obtain ⟨h1, h2⟩ := ih ht
    refine ⟨by simp [h1], ?_⟩
    intro d hd
    rcases List.mem_cons.1 hd with rfl | hd
    · exact ⟨a, by simp, hc⟩
    · obtain ⟨m, hm, hdm⟩ := h2 d hd
      exact ⟨m, by simp [hm], hdm⟩

theorem scan_some {skip : List Label} {before after : Option Label} {ls : List Label} {l : Label}
    (h : scan skip before after ls = some l) :
    l ∈ ls ∧ l ∉ skip ∧ (truthy after = true → after.getD [] < l) ∧ (truthy before = true → l < before.getD []) := by
  induction ls with
  | nil => simp [scan] at h
  | cons a ls ih =>
    unfold scan at h
    split at h
    · obtain ⟨h1, h2⟩ := ih h; exact ⟨by simp [h1], h2⟩
    · split at h
      · obtain ⟨h1, h2⟩ := ih h; exact ⟨by simp [h1], h2⟩
      · split at h
        · simp at h
        · rename_i h1 h2 h3
          simp only [Option.some.injEq] at h
          subst h
          refine ⟨by simp, by simpa using h2, ?_, ?_⟩
          · intro ht; simpa [ht] using h1
          · intro ht; simpa [ht] using h3

theorem tryLengths_ok {skip : List Label} {before after : Option Label} {lists : List (List Nat)} {is : List Nat} {l : Label}
    (h : tryLengths skip before after lists is = .ok l) :
    ∃ i ∈ is, scan skip before after (product (lists.take (i + 1))) = some l := by
  induction is with
  | nil => simp [tryLengths] at h
  | cons i is ih =>
    unfold tryLengths at h
    split at h
    · rename_i label hs
      simp only [Except.ok.injEq] at h
      subst h
      exact ⟨i, by simp, hs⟩
    · obtain ⟨j, hj, hs⟩ := ih h
      exact ⟨j, by simp [hj], hs⟩

theorem tryLengths_err {skip : List Label} {before after : Option Label} {lists : List (List Nat)} {is : List Nat} {e : Err}
    (h : tryLengths skip before after lists is = .error e) :
    e = .valueError ∧ ∀ i ∈ is, scan skip before after (product (lists.take (i + 1))) = none := by
  induction is with
  | nil => simp [tryLengths] at h; exact ⟨h.symm, by simp⟩
  | cons i is ih =>
    unfold tryLengths at h
    split at h
    · simp at h
    · rename_i hs
      obtain ⟨h1, h2⟩ := ih h
      refine ⟨h1, ?_⟩
      intro j hj
      rcases List.mem_cons.1 hj with rfl | hj
      · exact hs
      · exact h2 j hj

theorem charLists_sub {choices : List Nat} {start : Label} {ls : List (List Nat)} (h : charLists choices start = .ok ls) :
    ls.length = start.length ∧ ∀ m ∈ ls, ∀ c ∈ m, c ∈ choices := by
  induction start generalizing ls with
  | nil => simp [charLists] at h; subst h; simp
  | cons c cs ih =>
    unfold charLists at h
    split at h
    · simp at h
    · split at h
      · simp at h
      · rename_i idx _ _ ls' hls
        simp only [Except.ok.injEq] at h
        subst h
        obtain ⟨h1, h2⟩ := ih hls
        refine ⟨by simp [h1], ?_⟩
        intro m hm d hd
        rcases List.mem_cons.1 hm with rfl | hm
        · exact List.mem_of_mem_drop hd
        · exact h2 m hm d hd

/-- **Returned labels satisfy the constraints.** -/
theorem generateLabel_ok {skip : List Label} {before after : Option Label} {l : Label}
    (h : generateLabel skip before after = .ok l) :
    LabelOk l ∧ l ∉ skip ∧ (truthy after = true → after.getD [] < l) ∧ (truthy before = true → l < before.getD []) := by
  unfold generateLabel at h
  simp only at h
  split at h
  · simp at h
  · split at h
    · simp at h
    · rename_i ls hls
      obtain ⟨i, hi, hs⟩ := tryLengths_ok h
      obtain ⟨h1, h2⟩ := charLists_sub hls
      obtain ⟨hm, hr⟩ := scan_some hs
      obtain ⟨hlen, hch⟩ := mem_product hm
      refine ⟨⟨?_, ?_⟩, hr⟩
      · intro e
        rw [e] at hlen
        simp at hlen
      · intro c hc
        obtain ⟨m, hm, hcm⟩ := hch c hc
        have hm := List.mem_of_mem_take hm
        rcases List.mem_append.1 hm with hm | hm
        · exact charChoices_sub _ _ (h2 m hm c hcm)
        · simp only [List.mem_singleton] at hm
          subst hm
          exact charChoices_sub _ _ hcm

/-! ### Finding a label -/

theorem charLists_of {choices : List Nat} : ∀ {start : Label}, (∀ c ∈ start, c ∈ choices) →
    ∃ ls, charLists choices start = .ok ls ∧ ls.length = start.length ∧
      ∀ rest, ∃ tl, product (ls ++ [rest]) = (product [rest]).map (fun t => start ++ t) ++ tl
  | [], _ => ⟨[], rfl, rfl, fun rest => ⟨[], by simp⟩⟩
  | c :: cs, h => by
    obtain ⟨ls, h1, h2, h3⟩ := charLists_of (start := cs) (fun d hd => h d (by simp [hd]))
    have hc : c ∈ choices := h c (by simp)
    have hidx : ∃ idx, choices.idxOf? c = some idx ∧ ∃ t, choices.drop idx = c :: t := by
      cases hi : choices.idxOf? c with
      | none => rw [List.idxOf?_eq_none_iff] at hi; exact absurd hc hi
      | some idx =>
        refine ⟨idx, rfl, ?_⟩
        obtain ⟨h4, h5⟩ := List.findIdx?_eq_some_iff_getElem.1 hi
        refine ⟨choices.drop (idx + 1), ?_⟩
        rw [List.drop_eq_getElem_cons h4]
        congr 1
        simpa using h5.1
    obtain ⟨idx, hi, t, ht⟩ := hidx
    refine ⟨choices.drop idx :: ls, by simp [charLists, hi, h1], by simp [h2], ?_⟩
    intro rest
    obtain ⟨tl, htl⟩ := h3 rest
    refine ⟨tl.map (fun u => c :: u) ++ t.flatMap (fun d => (product (ls ++ [rest])).map (fun u => d :: u)), ?_⟩
    rw [List.cons_append, product, ht, List.flatMap_cons, htl]
    simp [List.map_append, List.append_assoc, Function.comp_def]

theorem commonLen_le (a b : Label) : commonLen a b ≤ b.length := by
  induction a generalizing b with
  | nil => simp [commonLen]
  | cons x a ih =>
    cases b with
    | nil => simp [commonLen]
    | cons y b =>
      unfold commonLen
      split
      · simp
      · have := ih b; simp; omega

theorem commonLen_append (a t : Label) : commonLen (a ++ t) a = a.length := by
  induction a with
  | nil => cases t <;> simp [commonLen]
  | cons x a ih => simp [commonLen, ih]

/-- one of the lengths tried succeeds -/
theorem tryLengths_finds {skip : List Label} {before after : Option Label} {lists : List (List Nat)} {is : List Nat} {i : Nat}
    {l : Label} (hi : i ∈ is) (hs : scan skip before after (product (lists.take (i + 1))) = some l) :
    ∃ l, tryLengths skip before after lists is = .ok l := by
  cases h : tryLengths skip before after lists is with
  | ok l => exact ⟨l, rfl⟩
  | error e =>
    have := (tryLengths_err h).2 i hi
    rw [this] at hs
    simp at hs

/-- the first candidate is taken when it fits -/
theorem scan_head {skip : List Label} {before after : Option Label} {l : Label} {ls : List Label}
    (h1 : truthy after = true → after.getD [] < l) (h2 : l ∉ skip) (h3 : truthy before = true → l < before.getD []) :
    scan skip before after (l :: ls) = some l := by
  unfold scan
  rw [if_neg, if_neg, if_neg]
  · cases h : truthy before <;> simp
    exact h3 h
  · simpa using h2
  · cases h : truthy after <;> simp
    exact h1 h

/-- `a0` is the least label after `a` -/
theorem lt_succ_label {a b : Label} (hb : ∀ c ∈ b, c ∈ allChars) (hab : a < b) (hne : b ≠ a ++ [48]) : a ++ [48] < b := by
  induction a generalizing b with
  | nil =>
    cases b with
    | nil => simp at hab
    | cons c b =>
      have hc := allChars_ge (hb c (by simp))
      rw [List.nil_append, List.cons_lt_cons_iff]
      rcases Nat.lt_or_ge 48 c with h | h
      · exact Or.inl h
      · have : c = 48 := by omega
        subst this
        refine Or.inr ⟨rfl, ?_⟩
        cases b with
        | nil => simp at hne
        | cons d b => simp
  | cons x a ih =>
    cases b with
    | nil => simp at hab
    | cons c b =>
      rw [List.cons_append, List.cons_lt_cons_iff]
      rw [List.cons_lt_cons_iff] at hab
      rcases hab with h | ⟨rfl, h⟩
      · exact Or.inl h
      · refine Or.inr ⟨rfl, ih (fun d hd => hb d (by simp [hd])) h ?_⟩
        intro e
        exact hne (by rw [e]; rfl)

theorem lt_snoc (a : Label) (c : Nat) : a < a ++ [c] := plt_prefix (List.prefix_append _ _) (by simp)

theorem zero_le {b : Label} (hb : LabelOk b) : ¬ b < [48] := by
  obtain ⟨h1, h2⟩ := hb
  cases b with
  | nil => simp at h1
  | cons c b =>
    have := allChars_ge (h2 c (by simp))
    rw [List.cons_lt_cons_iff]
    simp
    omega

/-- With a lower bound: what happens, when no label to skip is strictly between the bounds. -/
theorem generateLabel_after {skip : List Label} {before : Option Label} {a : Label} (ha : LabelOk a)
    (hb : ∀ b, before = some b → LabelOk b)
    (hadj : ∀ s ∈ skip, a < s → ∃ b, before = some b ∧ ¬ s < b) :
    (∃ b, before = some b ∧ (¬ a < b ∨ b = a ++ [48]) ∧
      generateLabel skip before (some a) = .error .invalidLabelConstraints) ∨
    ((∀ b, before = some b → a ++ [48] < b) ∧ ∃ l, generateLabel skip before (some a) = .ok l) := by
  have hta : truthy (some a) = true := truthy_some.2 ha.1
  have hch : charChoices before (some a) = allChars := by unfold charChoices; rw [hta]; simp [allChars]
  have hst : ∀ ch, startOf ch (some a) = a := by intro ch; unfold startOf; rw [if_pos hta]; rfl
  by_cases hng : noGap before a = true
  · left
    cases before with
    | none => simp [noGap, truthy] at hng
    | some b =>
      refine ⟨b, rfl, ?_, ?_⟩
      · have htb : truthy (some b) = true := truthy_some.2 (hb b rfl).1
        simp only [noGap, htb, Bool.true_and, Option.getD_some, Bool.or_eq_true, Bool.not_eq_true', decide_eq_false_iff_not,
          beq_iff_eq, Option.some.injEq] at hng
        exact hng
      · unfold generateLabel
        simp only [hst, hng, if_true]
  · right
    have hgap : ∀ b, before = some b → a ++ [48] < b := by
      rintro b rfl
      have htb : truthy (some b) = true := truthy_some.2 (hb b rfl).1
      simp only [noGap, htb, Bool.true_and, Option.getD_some, Bool.or_eq_true, Bool.not_eq_true', decide_eq_false_iff_not,
        beq_iff_eq, Option.some.injEq, not_or, not_not] at hng
      exact lt_succ_label (hb b rfl).2 hng.1 hng.2
    refine ⟨hgap, ?_⟩
    obtain ⟨ls, h1, h2, h3⟩ := charLists_of (choices := allChars) (start := a) ha.2
    unfold generateLabel
    simp only [hst, hch, h1, if_neg hng]
    obtain ⟨tl, htl⟩ := h3 allChars
    have hhead : ∃ tl', product ((ls ++ [allChars]).take (a.length + 1)) = (a ++ [48]) :: tl' := by
      rw [List.take_of_length_le (by simp [h2]), htl]
      exact ⟨_, rfl⟩
    obtain ⟨tl', htl'⟩ := hhead
    refine tryLengths_finds (i := a.length) (l := a ++ [48]) ?_ ?_
    · rw [List.mem_iff_getElem?]
      have := commonLen_le (before.getD []) a
      refine ⟨a.length - commonLen (before.getD []) a, ?_⟩
      rw [Option.getD_some, List.getElem?_drop, List.getElem?_range (by simp [h2]; omega)]
      simp; omega
    · rw [htl']
      refine scan_head (fun _ => lt_snoc a 48) ?_ ?_
      · intro hm
        obtain ⟨b, e, hnb⟩ := hadj _ hm (lt_snoc a 48)
        exact hnb (hgap b e)
      · intro htb
        cases before with
        | none => simp [truthy] at htb
        | some b => exact hgap b rfl

/-- With a lower bound that is a prefix of the upper bound, the label is the least one. -/
theorem generateLabel_after_prefix {skip : List Label} {a t : Label} (ha : LabelOk a)
    (hb : LabelOk (a ++ t)) (ht : t ≠ []) (hne : t ≠ [48]) (hskip : a ++ [48] ∉ skip) :
    generateLabel skip (some (a ++ t)) (some a) = .ok (a ++ [48]) := by
  have hta : truthy (some a) = true := truthy_some.2 ha.1
  have htb : truthy (some (a ++ t)) = true := truthy_some.2 hb.1
  have hch : charChoices (some (a ++ t)) (some a) = allChars := by unfold charChoices; rw [hta]; simp [allChars]
  have hst : ∀ ch, startOf ch (some a) = a := by intro ch; unfold startOf; rw [if_pos hta]; rfl
  have hlt : a < a ++ t := plt_prefix (List.prefix_append _ _) (by simpa using ht)
  have hng : noGap (some (a ++ t)) a = false := by
    simp [noGap, htb, hlt, hne]
  have hgap : a ++ [48] < a ++ t := lt_succ_label hb.2 hlt (by simpa using hne)
  obtain ⟨ls, h1, h2, h3⟩ := charLists_of (choices := allChars) (start := a) ha.2
  unfold generateLabel
  simp only [hst, hch, h1, hng]
  obtain ⟨tl, htl⟩ := h3 allChars
  have hhead : ∃ tl', product ((ls ++ [allChars]).take (a.length + 1)) = (a ++ [48]) :: tl' := by
    rw [List.take_of_length_le (by simp [h2]), htl]
    exact ⟨_, rfl⟩
  obtain ⟨tl', htl'⟩ := hhead
  have hdrop : (List.range (ls ++ [allChars]).length).drop (commonLen ((some (a ++ t)).getD []) ((some a).getD [])) = [a.length] := by
    simp only [Option.getD_some, commonLen_append, List.length_append, h2, List.length_singleton]
    rw [List.range_succ, List.drop_append_of_le_length (by simp), List.drop_of_length_le (by simp)]
    rfl
  rw [hdrop]
  simp only [Bool.false_eq_true, if_false, tryLengths, htl']
  rw [scan_head (before := some (a ++ t)) (after := some a) (fun _ => lt_snoc a 48) hskip (fun _ => hgap)]

/-- With an upper bound only. -/
theorem generateLabel_before {skip : List Label} {b : Label} (hb : LabelOk b) :
    ((b = [48] ∨ b = [48, 48]) ∧ generateLabel skip (some b) none = .error .invalidLabelConstraints) ∨
    (([48] : Label) < b ∧ b ≠ [48, 48] ∧ ([48] ∉ skip → generateLabel skip (some b) none = .ok [48])) := by
  have htb : truthy (some b) = true := truthy_some.2 hb.1
  have hch : charChoices (some b) none = allChars := by unfold charChoices; rw [htb]; simp [allChars]
  have hst : startOf allChars none = [48] := rfl
  by_cases hng : noGap (some b) [48] = true
  · left
    refine ⟨?_, ?_⟩
    · simp only [noGap, htb, Bool.true_and, Option.getD_some, Bool.or_eq_true, Bool.not_eq_true', decide_eq_false_iff_not,
        beq_iff_eq, Option.some.injEq] at hng
      rcases hng with h | h
      · left; exact ple_antisymm h (zero_le hb)
      · right; exact h
    · unfold generateLabel
      simp only [hch, hst, hng, if_true]
  · right
    have hng' := hng
    simp only [noGap, htb, Bool.true_and, Option.getD_some, Bool.or_eq_true, Bool.not_eq_true', decide_eq_false_iff_not,
      beq_iff_eq, Option.some.injEq, not_or, not_not] at hng'
    refine ⟨hng'.1, hng'.2, ?_⟩
    intro hskip
    unfold generateLabel
    simp only [hch, hst, if_neg hng]
    have h1 : charLists allChars [48] = .ok [allChars] := rfl
    simp only [h1]
    have h2 : (List.range ([allChars] ++ [allChars]).length).drop (commonLen ((some b).getD []) ((none : Option Label).getD [])) = [0, 1] := by
      have : commonLen b [] = 0 := by cases b <;> rfl
      simp [this, List.range_succ]
    rw [h2]
    have h3 : ∃ tl, product (([allChars] ++ [allChars]).take (0 + 1)) = [48] :: tl := ⟨_, rfl⟩
    obtain ⟨tl, h3⟩ := h3
    simp only [tryLengths, h3]
    rw [scan_head (before := some b) (after := none) (fun h => by simp [truthy] at h) hskip (fun _ => hng'.1)]

theorem generateLabel_free : generateLabel [] none none = .ok [65] := by decide

/-- `product` lists every combination -/
theorem mem_product_of : ∀ {ls : List (List Nat)} {l : Label}, List.Forall₂ (fun c m => c ∈ m) l ls → l ∈ product ls
  | [], _, h => by cases h; simp [product]
  | m :: ls, _, h => by
    cases h with
    | cons h1 h2 =>
      simp only [product, List.mem_flatMap, List.mem_map]
      exact ⟨_, h1, _, mem_product_of h2, rfl⟩

theorem scan_none_unbounded {skip : List Label} {ls : List Label} (h : scan skip none none ls = none) :
    ∀ l ∈ ls, l ∈ skip := by
  induction ls with
  | nil => simp
  | cons a ls ih =>
    unfold scan at h
    simp only [truthy_none, Bool.false_and, Bool.false_eq_true, if_false] at h
    split at h
    · rename_i hc
      intro l hl
      rcases List.mem_cons.1 hl with rfl | hl
      · simpa using hc
      · exact ih h l hl
    · simp at h

/-- Without bounds: one or two letters not in `skip`, or ValueError when all of them are. -/
theorem generateLabel_none {skip : List Label} :
    (∃ l, generateLabel skip none none = .ok l) ∨
    (generateLabel skip none none = .error .valueError ∧
      (∀ c ∈ upper, [c] ∈ skip) ∧ ∀ c ∈ upper, ∀ d ∈ upper, [c, d] ∈ skip) := by
  have hg : generateLabel skip none none = tryLengths skip none none ([upper] ++ [upper]) [0, 1] := rfl
  cases h : generateLabel skip none none with
  | ok l => exact Or.inl ⟨l, rfl⟩
  | error e =>
    right
    rw [hg] at h
    obtain ⟨rfl, h2⟩ := tryLengths_err h
    refine ⟨rfl, ?_, ?_⟩
    · intro c hc
      exact scan_none_unbounded (h2 0 (by simp)) _ (mem_product_of (List.Forall₂.cons hc List.Forall₂.nil))
    · intro c hc d hd
      exact scan_none_unbounded (h2 1 (by simp)) _
        (mem_product_of (List.Forall₂.cons hc (List.Forall₂.cons hd List.Forall₂.nil)))

end Verif.LT
